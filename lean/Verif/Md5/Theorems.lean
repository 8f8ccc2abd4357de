import Verif.Md5.LemmasStream

/-! # C28, C29: MD5 -/

namespace Verif.Md5

open Verif

/-- Lower-case hexadecimal as printed by the code. -/
theorem hex_eq (l : List Byte) : l.flatMap hex02 = Rfc.hex l := by
  unfold Rfc.hex
  congr 1
  funext b
  have : ∀ n : Fin 256, hex02 (BitVec.ofFin n) =
      ["0123456789abcdef".toList[n.val / 16]!, "0123456789abcdef".toList[n.val % 16]!] := by decide +kernel
  exact this b.toFin

/-- **C28.** For every string shorter than 2^32 bytes, `encode<MD5>` gives the lower-case hexadecimal RFC 1321 digest: in
particular, all 64 constants are `⌊2^32 |sin i|⌋`, no uninitialised or out-of-range byte is read and the padding is right for
every length. -/
theorem C28_hash_is_rfc1321 (s : List Byte) (h : s.length < 2 ^ 32) : hash s = .ok (Rfc.hex (Rfc.digest s)) := by
  unfold hash
  rw [Nat.mod_eq_of_lt h, List.take_length]
  obtain ⟨ctx, h1, r1⟩ := update_rep (s := s) rep_init (by simpa using h)
  rw [List.nil_append] at r1
  rw [h1, Outcome.bind_ok, final_rep r1, Outcome.bind_ok, hex_eq]
  rfl

/-- **C28.** The digest has 32 characters. -/
theorem C28_length (s : List Byte) (h : s.length < 2 ^ 32) (t : List Char) (ht : hash s = .ok t) : t.length = 32 := by
  rw [C28_hash_is_rfc1321 s h] at ht
  cases ht
  simp [Rfc.hex, Rfc.digest, List.length_flatMap, show List.range 4 = [0, 1, 2, 3] from rfl]

/-- A known digest: the model agrees with RFC 1321, A.5. -/
example : hash ("abc".toList.map fun c => BitVec.ofNat 8 c.toNat) = .ok "900150983cd24fb0d6963f7d28e17f72".toList := by
  decide +kernel

/-- Feed all pieces, then finish. -/
def feed (pieces : List (List Byte)) : Outcome (List Byte) := do
  let ctx ← pieces.foldlM update init
  final ctx

/-- **C29.** However a message is cut into pieces (of at most 2^32 - 64 bytes), feeding them one after the other gives the RFC 1321
digest of the whole message. -/
theorem C29_streaming_partial (pieces : List (List Byte)) (h : ∀ p ∈ pieces, p.length ≤ 2 ^ 32 - 64) :
    feed pieces = .ok (Rfc.digest pieces.flatten) := by
  have key : ∀ (ps : List (List Byte)) (ctx : Ctx) (m : List Byte), Rep ctx m → (∀ p ∈ ps, p.length ≤ 2 ^ 32 - 64) →
      ∃ ctx', ps.foldlM update ctx = .ok ctx' ∧ Rep ctx' (m ++ ps.flatten) := by
    intro ps
    induction ps with
    | nil => intro ctx m hr _; exact ⟨ctx, rfl, by simpa using hr⟩
    | cons p ps ih =>
      intro ctx m hr hps
      have hp := hps p (by simp)
      obtain ⟨c1, h1, r1⟩ := update_rep (s := p) hr (by omega)
      obtain ⟨c2, h2, r2⟩ := ih c1 _ r1 (fun q hq => hps q (by simp [hq]))
      exact ⟨c2, by rw [List.foldlM_cons, h1]; exact h2, by simpa using r2⟩
  obtain ⟨ctx, h1, r1⟩ := key pieces init [] rep_init h
  unfold feed
  rw [h1, Outcome.bind_ok, final_rep r1, List.nil_append]

/-- **C29.** Two ways to cut the same message give the same digest. -/
theorem C29_cuts_agree_partial (ps qs : List (List Byte)) (h : ps.flatten = qs.flatten) (hp : ∀ p ∈ ps, p.length ≤ 2 ^ 32 - 64)
    (hq : ∀ p ∈ qs, p.length ≤ 2 ^ 32 - 64) : feed ps = feed qs := by
  rw [C29_streaming_partial ps hp, C29_streaming_partial qs hq, h]

example : feed [[1, 2], [], List.replicate 100 3] = feed [[1, 2, 3], List.replicate 99 3] :=
  C29_cuts_agree_partial _ _ (by decide) (by decide) (by decide)

/-- A piece that is longer and does not start at a block boundary makes `i + 63` wrap around: the input is read out of range. -/
theorem C29_long_piece_overruns (p q : List Byte) (hp : p.length < 2 ^ 32) (hq : q.length < 2 ^ 32)
    (h : 2 ^ 32 ≤ p.length % 64 + q.length) : feed [p, q] = .ub := by
  obtain ⟨ctx, h1, r1⟩ := update_rep (s := p) rep_init (by simpa using hp)
  rw [List.nil_append] at r1
  unfold feed
  simp only [List.foldlM_cons, List.foldlM_nil, h1, Outcome.bind_ok, update_ub r1 h hq, Outcome.bind_ub]

example : feed [[1], List.replicate 4294967295 0] = .ub :=
  C29_long_piece_overruns _ _ (by decide) (by rw [List.length_replicate]; decide)
    (by rw [List.length_replicate]; decide)

end Verif.Md5
