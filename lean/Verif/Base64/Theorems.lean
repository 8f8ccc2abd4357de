import Verif.Base64.LemmasDec

/-! # C26, C27, C65: Base64 -/

namespace Verif.Base64

open Verif

/-- **C27.** The encoding of every string shorter than 2^32 is that of RFC 4648. -/
theorem C27_encode_is_rfc4648 (s : List Byte) (h : s.length < 2 ^ 32) : encode s = .ok ((Rfc.encode s).map chr) := by
  rw [encode_eq h, enc_rfc]

/-- **C27.** Its length is four characters for every three bytes begun. -/
theorem C27_length (s t : List Byte) (h : s.length < 2 ^ 32) (ht : encode s = .ok t) : t.length = 4 * ((s.length + 2) / 3) := by
  rw [encode_eq h] at ht
  cases ht
  exact enc_length s

/-- The alphabet in English: letters, digits, `+` and `/`. -/
def InAlphabet (c : Byte) : Prop := ∃ d ∈ "ABCDEFGHIJKLMNOPQRSTUVWXYZabcdefghijklmnopqrstuvwxyz0123456789+/".toList, c.val = d.toNat

theorem inAlphabet (x : Byte) (h : isBase64 x = true) : InAlphabet x := by
  have : ∀ x : Byte, isBase64 x = true →
      "ABCDEFGHIJKLMNOPQRSTUVWXYZabcdefghijklmnopqrstuvwxyz0123456789+/".toList.any (fun d => x.val == d.toNat) = true := by
    decide +kernel
  obtain ⟨d, h1, h2⟩ := List.any_eq_true.1 (this x h)
  exact ⟨d, h1, by simpa using h2⟩

/-- **C27.** All characters but the last two are in the alphabet; those two are in the alphabet or `=`. -/
theorem C27_alphabet (s t : List Byte) (h : s.length < 2 ^ 32) (ht : encode s = .ok t) :
    (∀ x ∈ t.take (t.length - 2), InAlphabet x) ∧ ∀ x ∈ t, InAlphabet x ∨ x.val = '='.toNat := by
  rw [encode_eq h] at ht
  cases ht
  refine ⟨fun x hx => inAlphabet x (enc_valid s x hx), fun x hx => ?_⟩
  have : ∀ s : List Byte, ∀ x ∈ enc s, isBase64 x = true ∨ x = chr '=' := by
    intro s
    induction s using enc.induct with
    | case1 => simp [enc]
    | case2 a => simp [enc, lett_valid (q0_lt _), lett_valid (q1_lt _ _)]
    | case3 a b => simp [enc, lett_valid (q0_lt _), lett_valid (q1_lt _ _), lett_valid (q2_lt _ _)]
    | case4 a b c l ih =>
      intro x hx
      simp only [enc, List.mem_cons] at hx
      rcases hx with rfl | rfl | rfl | rfl | hx
      · exact .inl (lett_valid (q0_lt _))
      · exact .inl (lett_valid (q1_lt _ _))
      · exact .inl (lett_valid (q2_lt _ _))
      · exact .inl (lett_valid (q3_lt _))
      · exact ih x hx
  rcases this s x hx with h | rfl
  · exact .inl (inAlphabet x h)
  · exact .inr (by decide)

/-- **C26.** Decoding an encoded string gives the string, if the encoding is shorter than 2^31 (the `int` length of the
decoder). -/
theorem C26_decode_inverts_encode_partial (s : List Byte) (h : 4 * ((s.length + 2) / 3) < 2 ^ 31) :
    ∃ t, encode s = .ok t ∧ decode t = .ok s := by
  refine ⟨enc s, encode_eq (by omega), ?_⟩
  unfold decode
  have hl : (enc s).length < 2 ^ 31 := by rw [enc_length]; exact h
  have : toInt32 (enc s).length = (enc s).length := by
    unfold toInt32
    rw [Nat.mod_eq_of_lt (by omega), if_pos hl]
  rw [this]
  simpa using dec_enc s [] (Int.le_refl _)

/-- The hypothesis is met by every string up to 1.6 billion bytes, for example this one. -/
example : ∃ t, encode [0, 255, 61, 10] = .ok t ∧ decode t = .ok [0, 255, 61, 10] :=
  C26_decode_inverts_encode_partial _ (by decide)

/-- For encodings of 2^31 to 2^32-1 characters, the length counter of the decoder overflows. -/
theorem C26_long_text_overflows (s : List Byte) (h : 2 ^ 31 ≤ 4 * ((s.length + 2) / 3)) (h' : 4 * ((s.length + 2) / 3) < 2 ^ 32) :
    ∃ t, encode s = .ok t ∧ decode t = .ub := by
  refine ⟨enc s, encode_eq (by omega), ?_⟩
  have hl := enc_length s
  have : toInt32 (enc s).length = -2147483648 + ((enc s).length - 2 ^ 31 : Nat) := by
    unfold toInt32
    rw [Nat.mod_eq_of_lt (by omega), if_neg (by omega)]
    omega
  unfold decode
  rw [this, decLoop_overflow ((enc s).length - 2 ^ 31) (enc s) [] [] rfl (by omega) (by omega)]
  · rfl
  · intro x hx
    refine enc_valid s x ?_
    have h2 : (enc s).take ((enc s).length - 2 ^ 31) = ((enc s).take ((enc s).length - 2)).take ((enc s).length - 2 ^ 31) := by
      rw [List.take_take, Nat.min_eq_left (by omega)]
    rw [h2] at hx
    exact List.mem_of_mem_take hx

/-- There are such strings below 2^31 bytes. -/
example : ∃ t, encode (List.replicate 1700000000 65) = .ok t ∧ decode t = .ub :=
  C26_long_text_overflows _ (by rw [List.length_replicate]; decide) (by rw [List.length_replicate]; decide)

/-- **C65.** Decoding an arbitrary text shorter than 2^31 is defined; it gives six bits for each character up to the first one
that is not in the alphabet, in whole bytes. -/
theorem C65_decode_any_text (t : List Byte) (h : t.length < 2 ^ 31) :
    ∃ o, decode t = .ok o ∧ o.map Fin.val = Rfc.decode t := by
  obtain ⟨v, rest, rfl, h1, h2, h3⟩ := values_eq t
  have hi : toInt32 (v ++ rest).length = (v ++ rest).length := by
    unfold toInt32
    rw [Nat.mod_eq_of_lt (by omega), if_pos h]
  obtain ⟨o, h4, h5⟩ := dec_valid v rest [] h1 h2 (len := (v ++ rest).length) (by simp; omega)
  refine ⟨o, ?_, ?_⟩
  · unfold decode
    rw [hi, h4, List.nil_append]
  · rw [h5, Rfc.decode, h3, bits6]

/-- **C65.** The result depends on the text up to the first character outside the alphabet only. -/
theorem C65_rest_ignored (v r r' : List Byte) (c c' : Byte) (hc : ¬InAlphabet c) (hc' : ¬InAlphabet c')
    (h : (v ++ c :: r).length < 2 ^ 31) (h' : (v ++ c' :: r').length < 2 ^ 31) :
    decode (v ++ c :: r) = decode (v ++ c' :: r') := by
  have key : ∀ (v : List Byte) (c : Byte) (r : List Byte), ¬InAlphabet c → Rfc.values (v ++ c :: r) = Rfc.values v := by
    intro v c r hc
    have hv : Rfc.value c = none := by
      apply value_invalid
      cases hb : isBase64 c with
      | false => rfl
      | true => exact absurd (inAlphabet c hb) hc
    induction v with
    | nil => simp [Rfc.values, hv]
    | cons x v ih => simp only [List.cons_append, Rfc.values, ih]
  obtain ⟨o, h1, h2⟩ := C65_decode_any_text _ h
  obtain ⟨o', h1', h2'⟩ := C65_decode_any_text _ h'
  have : o = o' := by
    have : o.map Fin.val = o'.map Fin.val := by
      rw [h2, h2']
      simp only [Rfc.decode, key _ _ _ hc, key _ _ _ hc']
    exact (List.map_inj_right (fun a b h => Fin.ext h)).1 this
  rw [h1, h1', this]

example : decode ("TWFu*ignored".toList.map chr) = .ok ("Man".toList.map chr) := by decide +kernel
example : decode ("TWF".toList.map chr) = .ok ("Ma".toList.map chr) := by decide +kernel

end Verif.Base64
