import Verif.RealText.LemmasObf
import Verif.Ieee.Nearest

/-!
# C145: floating-point numbers as text

`F` is `binary32` (`float`) or `binary64` (`double`).
-/

namespace Verif.RealText

open Verif Ieee Spec Ieee.Spec

variable {F : Fmt}

theorem dec (hF : F = binary32 ∨ F = binary64) : Dec F := by
  rcases hF with rfl | rfl
  · exact dec32
  · exact dec64

/-! ## The text -/

/-- **C145.** `toStr` of a finite number is a decimal numeral for the number with six digits nearest to it, in fixed or scientific
notation depending on its size, without superfluous zeros. -/
theorem C145_text (x : ℝ) : ∃ d, NearestSix x d ∧ Numeral (toStr (.fin x)) d ∧ Notation d (toStr (.fin x)) :=
  ⟨six x, six_nearest x, toStr_numeral x, toStr_notation x⟩

/-- **C145.** There is exactly one such number. -/
theorem C145_nearest_unique (x : ℝ) : ∃! d, NearestSix x d := ⟨six x, six_nearest x, fun _ h => nearest_six.1 h⟩

/-- **C145.** It differs from the number by at most one part in 200000. -/
theorem C145_text_error (x d : ℝ) (h : NearestSix x d) : |d - x| ≤ |x| / (2 * 10 ^ 5) := by
  rw [nearest_six.1 h]; exact six_err x

/-- **C145.** Numbers without overflow are rounded (`F.fl`, `F.rnd`) to the nearest number of the type, ties to the even last digit, and
there is only one such number. -/
theorem C145_rounding (hF : F = binary32 ∨ F = binary64) (x y : ℝ) (ho : ¬ Over F x) :
    (Nearest F x y ↔ y = F.fl x) ∧ F.rnd x = .fin (F.fl x) := by
  have hD := dec hF
  refine ⟨nearest_iff ?_ hD.good.q ho, rnd_fin' hD.good ho⟩
  rcases hF with rfl | rfl <;> simp [binary32, binary64]

/-- **C145.** Any decimal numeral that does not overflow is read as the nearest number of the type. -/
theorem C145_read (hF : F = binary32 ∨ F = binary64) (t : List Char) (q : ℝ) (h : Numeral t q) (ho : ¬ Over F q) :
    ∃ y, fromStr F t = .fin y ∧ Nearest F q y := by
  refine ⟨F.fl q, ?_, (C145_rounding hF q _ ho).1.2 rfl⟩
  rw [fromStr_numeral F h, rnd_fin' (dec hF).good ho]

/-- **C145.** A numeral that overflows is read as the largest number of the type, with its sign. -/
theorem C145_read_overflow (hF : F = binary32 ∨ F = binary64) (t : List Char) (q : ℝ) (h : Numeral t q) (ho : Over F q) :
    fromStr F t = .fin (if q < 0 then -F.top else F.top) := by
  rw [fromStr_numeral F h, rnd_inf (dec hF).good ho]
  by_cases hq : q < 0 <;> simp [hq]

/-! ## There and back through an `ObfuscatedValue` -/

/-- **C145.** A value that is stored can be read, any number of times; what is read is `Kept` of what was stored. -/
theorem C145_set_get (hF : F = binary32 ∨ F = binary64) (x : FP) (hx : Val F x) :
    ∃ o y, set x = .ok o ∧ get F o = .ok y ∧ Kept F x y ∧ Val F y := by
  obtain ⟨o, h1, h2⟩ := set_get (dec hF) hx
  exact ⟨o, _, h1, h2, (kept_spec F x _).2 rfl, kept_val (dec hF) hx⟩

/-- **C145.** A finite number comes back up to one part in 100000. -/
theorem C145_error (hF : F = binary32 ∨ F = binary64) (x : ℝ) (hx : Num F x) :
    ∃ o y, set (.fin x) = .ok o ∧ get F o = .ok (.fin y) ∧ |y - x| ≤ |x| / 10 ^ 5 := by
  obtain ⟨o, h1, h2⟩ := set_get (dec hF) (x := .fin x) hx
  refine ⟨o, _, h1, h2, ?_⟩
  have e1 := six_err x
  have e2 := fl_nearest (dec hF).p (six x) x (num_grid hx)
  have e3 := abs_sub_le (F.fl (six x)) (six x) x
  rw [abs_sub_comm x] at e2
  have e4 : |x| / (2 * 10 ^ 5) + |x| / (2 * 10 ^ 5) = |x| / 10 ^ 5 := by ring
  unfold back
  linarith

/-- **C145.** A finite number comes back unchanged if and only if it is the number of the type nearest to a decimal number with six
digits. -/
theorem C145_unchanged_iff (hF : F = binary32 ∨ F = binary64) (x : ℝ) (hx : Num F x) (o : List Base64.Byte)
    (ho : set (.fin x) = .ok o) : get F o = .ok (.fin x) ↔ ∃ d, Six d ∧ F.fl d = x := by
  obtain ⟨o', h1, h2⟩ := set_get (dec hF) (x := .fin x) hx
  rw [h1] at ho
  cases ho
  rw [h2, ← back_iff (dec hF)]
  simp [kept]

/-- **C145.** What is read once stays the same from then on: storing it again and reading it changes nothing. -/
theorem C145_settles (hF : F = binary32 ∨ F = binary64) (x y : FP) (hx : Val F x) (o o' : List Base64.Byte) (h1 : set x = .ok o)
    (h2 : get F o = .ok y) (h3 : set y = .ok o') : get F o' = .ok y := by
  obtain ⟨p, e1, e2⟩ := set_get (dec hF) hx
  rw [e1] at h1; cases h1
  rw [e2] at h2; cases h2
  obtain ⟨p', e3, e4⟩ := set_get (dec hF) (kept_val (dec hF) hx)
  rw [e3] at h3; cases h3
  rw [e4]
  cases x with
  | fin x => simp only [kept]; rw [show back F (back F x) = back F x from back_of_six (dec hF) (six_is_six x)]
  | _ => simp [kept, back, six, fl_zero]

/-- **C145.** Integers up to a million come back unchanged. -/
theorem C145_integers (hF : F = binary32 ∨ F = binary64) (n : ℤ) (h : |n| ≤ 10 ^ 6) :
    Num F n ∧ ∃ o, set (.fin n) = .ok o ∧ get F o = .ok (.fin n) := by
  have hD := dec hF
  have hn : Num F (n : ℝ) := by
    refine ⟨n, 0, ?_, ?_, hD.qmax, by simp⟩
    · have := hD.digits
      have h2 : (2 * 10 ^ 6 : ℤ) < 2 ^ F.p := by exact_mod_cast this
      omega
    · have := hD.zero; omega
  obtain ⟨o, h1, h2⟩ := set_get hD (x := .fin n) hn
  refine ⟨hn, o, h1, ?_⟩
  rw [h2]
  simp only [kept]
  rw [int_back hD h]

/-- **C145 fails beyond.** Larger integers do not, unless they are multiples of ten, although the type represents them exactly (up to
2^24 and 2^53). -/
theorem C145_integers_changed (hF : F = binary32 ∨ F = binary64) (n : ℤ) (h1 : 10 ^ 6 < |n|) (h2 : |n| < 2 ^ F.p) (h3 : ¬ 10 ∣ n) :
    Num F n ∧ ∃ o y, set (.fin n) = .ok o ∧ get F o = .ok (.fin y) ∧ y ≠ n := by
  have hD := dec hF
  have hn : Num F (n : ℝ) := ⟨n, 0, h2, by have := hD.zero; omega, hD.qmax, by simp⟩
  obtain ⟨o, e1, e2⟩ := set_get hD (x := .fin n) hn
  exact ⟨hn, o, _, e1, e2, int_lost hD h1 h2 h3⟩

/-- The hypotheses are met: 1234567 as `float` and 2^53 - 1 as `double`. -/
example : (∃ o y, set (.fin ((1234567 : ℤ) : ℝ)) = .ok o ∧ get binary32 o = .ok (.fin y) ∧ y ≠ ((1234567 : ℤ) : ℝ)) ∧
    ∃ o y, set (.fin ((9007199254740991 : ℤ) : ℝ)) = .ok o ∧ get binary64 o = .ok (.fin y) ∧ y ≠ ((9007199254740991 : ℤ) : ℝ) :=
  ⟨(C145_integers_changed (Or.inl rfl) 1234567 (by norm_num) (by norm_num [binary32]) (by norm_num)).2,
   (C145_integers_changed (Or.inr rfl) 9007199254740991 (by norm_num) (by norm_num [binary64]) (by norm_num)).2⟩

/-- **C145 fails for infinities and NaN.** They come back as zero. -/
theorem C145_infinite (hF : F = binary32 ∨ F = binary64) (x : FP) (hx : ∀ r, x ≠ .fin r) :
    ∃ o, set x = .ok o ∧ get F o = .ok (.fin 0) := by
  have hv : Val F x := by
    cases x with
    | fin r => exact absurd rfl (hx r)
    | _ => trivial
  obtain ⟨o, e1, e2⟩ := set_get (dec hF) hv
  refine ⟨o, e1, ?_⟩
  rw [e2]
  cases x with
  | fin r => exact absurd rfl (hx r)
  | _ => rfl

/-! ## Histories -/

/-- **C145.** Every history of an `ObfuscatedValue` returns what a plain variable would return if each value stored into it were
replaced by what is kept of it (`keep`). -/
theorem C145_history (hF : F = binary32 ∨ F = binary64) (dbg : Bool) (v : FP) (hv : Val F v) (ops : List Op)
    (hops : ∀ op ∈ ops, OpOk F dbg op) (keep : FP → FP) (hk : ∀ x, Kept F x (keep x)) :
    runFrom F dbg v ops = .ok (play keep (keep v) (ops.map (cmd F))) := by
  obtain ⟨o, e1, e2⟩ := set_get (dec hF) hv
  have : keep = kept F := funext fun x => (kept_spec F x _).1 (hk x)
  unfold runFrom
  rw [e1, this]
  exact run_play (dec hF) dbg ops hops (kept_val (dec hF) hv) e2

/-- **C145.** There is such a function. -/
theorem C145_keep (F : Fmt) : ∃ keep : FP → FP, ∀ x, Kept F x (keep x) := ⟨kept F, fun x => (kept_spec F x _).2 rfl⟩

/-- **C145.** If all values that a plain variable takes during the history have six digits (are nearest to a decimal number with
six digits), then the history returns the same as with the plain variable. -/
theorem C145_plain_history (hF : F = binary32 ∨ F = binary64) (dbg : Bool) (v : FP) (hv : Val F v) (ops : List Op)
    (hops : ∀ op ∈ ops, OpOk F dbg op)
    (h : Always (fun x => ∃ d, Six d ∧ x = .fin (F.fl d)) v (.assign v :: ops.map (cmd F))) :
    runFrom F dbg v ops = .ok (play id v (ops.map (cmd F))) := by
  have hk : ∀ x, (∃ d, Six d ∧ x = .fin (F.fl d)) → kept F x = x := by
    rintro x ⟨d, hd, rfl⟩
    simp only [kept]
    rw [back_of_six (dec hF) hd]
  have mono : ∀ (l : List Cmd) (a : FP), Always (fun x => ∃ d, Six d ∧ x = .fin (F.fl d)) a l → Always (fun x => kept F x = x) a l := by
    intro l
    induction l with
    | nil => intro _ _; trivial
    | cons c l ih =>
      intro a h
      cases c with
      | read => exact ih a h
      | assign w => exact ⟨hk _ h.1, ih _ h.2⟩
      | apply f => exact ⟨hk _ h.1, ih _ h.2⟩
  rw [C145_history hF dbg v hv ops hops (kept F) (fun x => (kept_spec F x _).2 rfl), hk v h.1,
    play_id (F := F) (kept F) v _ (mono _ _ h.2)]

/-- A `float` that starts as a half, gets a quarter added, is read, and is multiplied by four. -/
example (dbg : Bool) : runFrom binary32 dbg (.fin (1 / 2))
    [.compound .add (.fin (1 / 4)) false, .get, .compound .mul (.fin 4) false] = .ok [some (.fin (3 / 4)), some (.fin (3 / 4)), some (.fin 3)] := by
  have hg := dec32.good
  have num : ∀ (x : ℝ) (m : ℤ), |m| < 2 ^ 24 → x = m * 2 ^ (-2 : ℤ) → Num binary32 x := fun x m h1 h2 =>
    ⟨m, -2, h1, by norm_num [binary32], by norm_num [binary32], h2⟩
  have n2 := num (1 / 2) 2 (by norm_num) (by norm_num)
  have n1 := num (1 / 4) 1 (by norm_num) (by norm_num)
  have n3 := num (3 / 4) 3 (by norm_num) (by norm_num)
  have n12 := num 3 12 (by norm_num) (by norm_num)
  have n16 := num 4 16 (by norm_num) (by norm_num)
  have ex : ∀ {x : ℝ}, Num binary32 x → binary32.fl x = x := fun h => fl_exact hg.p (num_grid h)
  have r : ∀ {x : ℝ}, Num binary32 x → binary32.rnd x = .fin x := fun h => by rw [rnd_fin hg.p hg.q (num_top h), ex h]
  have s : ∀ {x : ℝ}, Num binary32 x → (∃ k j : ℤ, |k| < 10 ^ 6 ∧ x = k * 10 ^ j) → ∃ d, Six d ∧ FP.fin x = .fin (binary32.fl d) :=
    fun h h2 => ⟨_, h2, by rw [ex h]⟩
  have a1 : Ieee.add binary32 (.fin (1 / 2)) (.fin (1 / 4)) = .fin (3 / 4) := by
    rw [Ieee.add, show (1 : ℝ) / 2 + 1 / 4 = 3 / 4 by norm_num, r n3]
  have a2 : Ieee.mul binary32 (.fin (3 / 4)) (.fin 4) = .fin 3 := by
    rw [Ieee.mul, show (3 : ℝ) / 4 * 4 = 3 by norm_num, r n12]
  have := C145_plain_history (Or.inl rfl) dbg (.fin (1 / 2)) n2
    [.compound .add (.fin (1 / 4)) false, .get, .compound .mul (.fin 4) false] (by
      intro op hop
      simp only [List.mem_cons, List.not_mem_nil, or_false] at hop
      rcases hop with rfl | rfl | rfl
      · exact ⟨n1, fun _ h => by cases h⟩
      · trivial
      · exact ⟨n16, fun _ h => by cases h⟩) (by
      simp only [List.map, cmd, Always, a1, a2, and_true]
      exact ⟨s n2 ⟨5, -1, by norm_num, by norm_num⟩, s n3 ⟨75, -2, by norm_num, by norm_num⟩, s n12 ⟨3, 0, by norm_num, by norm_num⟩⟩)
  rw [this]
  simp only [List.map, cmd, play, a1, a2, id]

/-- **C145.** In debug builds a division by zero fails the assertion at that point. -/
theorem C145_division (hF : F = binary32 ∨ F = binary64) (v : FP) (hv : Val F v) (ops rest : List Op)
    (hops : ∀ op ∈ ops, OpOk F true op) (z : Bool) :
    runFrom F true v (ops ++ .compound .div (.fin 0) z :: rest) = .assertFail := by
  obtain ⟨o, e1, e2⟩ := set_get (dec hF) hv
  unfold runFrom
  rw [e1]
  show run F true o _ = _
  have ha := kept_val (dec hF) hv
  generalize kept F v = a at e2 ha
  clear e1
  induction ops generalizing o a with
  | nil => simp [run, step, divAssert, Outcome.check]
  | cons op ops ih =>
    have h1 := hops op List.mem_cons_self
    have h2 : ∀ op ∈ ops, OpOk F true op := fun op h => hops op (List.mem_cons_of_mem _ h)
    rw [List.cons_append]
    cases op with
    | get => simp only [run, step, e2, Outcome.bind_ok, Outcome.pure_eq, ih h2 o a e2 ha, Outcome.bind_assertFail]
    | set w =>
      obtain ⟨o', h3, h4⟩ := set_get (dec hF) h1
      simp only [run, step, h3, Outcome.bind_ok, Outcome.pure_eq, ih h2 o' _ h4 (kept_val (dec hF) h1), Outcome.bind_assertFail]
    | compound op w z' =>
      have hv := arith_val (dec hF) z' op ha h1.1
      obtain ⟨o', h3, h4⟩ := set_get (dec hF) hv
      simp only [run, step, divAssert_ok h1, e2, h3, h4, Outcome.bind_ok, Outcome.pure_eq, ih h2 o' _ h4 (kept_val (dec hF) hv),
        Outcome.bind_assertFail]

/-! ## `sToFloat` and `sToDouble` -/

/-- **C145.** `sToFloat` and `sToDouble` of the text of a finite number give what is kept of it. They end the program if and only if
the number is not zero and the decimal number written is below the normal numbers of the type (by more than rounding makes up for). -/
theorem C145_stod (hF : F = binary32 ∨ F = binary64) (x : ℝ) (hx : Num F x) (d : ℝ) (hd : NearestSix x d) :
    sToReal F (toStr (.fin x)) =
      open Classical in if x ≠ 0 ∧ |d| < 2 ^ (F.qmin + F.p - 1) - 2 ^ (F.qmin - 2) then .assertFail else .ok (.fin (F.fl d)) := by
  rw [nearest_six.1 hd]
  have h1 := scan_numeral (toStr_numeral x) stops_nil
  rw [List.append_nil] at h1
  simp only [sToReal, h1, rnd_six (dec hF) (num_top hx)]
  by_cases h : x ≠ 0 ∧ |six x| < 2 ^ (F.qmin + F.p - 1) - 2 ^ (F.qmin - 2)
  · rw [if_pos h, if_pos ((erange_six (dec hF) (num_top hx)).2 h)]
  · rw [if_neg h, if_neg (fun h' => h ((erange_six (dec hF) (num_top hx)).1 h'))]; rfl

/-- **C145 fails for small numbers.** Converting the text of a nonzero number up to the smallest normal number (`FLT_MIN`, `DBL_MIN`)
ends the program. -/
theorem C145_stod_small (hF : F = binary32 ∨ F = binary64) (x : ℝ) (hx : Num F x) (h0 : x ≠ 0) (h : |x| ≤ 2 ^ (F.qmin + F.p - 1)) :
    sToReal F (toStr (.fin x)) = .assertFail := by
  rw [C145_stod hF x hx _ (six_nearest x), if_pos ⟨h0, six_tiny (dec hF) h⟩]

/-- **C145.** Numbers of at least twice that size are converted. -/
theorem C145_stod_normal (hF : F = binary32 ∨ F = binary64) (x : ℝ) (hx : Num F x) (h : 2 ^ (F.qmin + F.p) ≤ |x|) :
    ∃ y, sToReal F (toStr (.fin x)) = .ok y ∧ Kept F (.fin x) y := by
  refine ⟨.fin (F.fl (six x)), ?_, ⟨six x, six_nearest x, rfl⟩⟩
  rw [C145_stod hF x hx _ (six_nearest x), if_neg]
  rintro ⟨-, h1⟩
  have h2 : (2 : ℝ) ^ (F.qmin + F.p - 1) ≤ |six x| := by
    apply six_large
    refine le_trans (le_of_eq ?_) h
    rw [zpow_sub₀ (by norm_num)]
    norm_num
    ring
  have := two_pos (F.qmin - 2)
  linarith

/-- **C145.** Infinities and NaN are converted to themselves. -/
theorem C145_stod_infinite (F : Fmt) (x : FP) (hx : ∀ r, x ≠ .fin r) : sToReal F (toStr x) = .ok x := by
  cases x with
  | fin r => exact absurd rfl (hx r)
  | nan => simp [toStr, sToReal, scan, spanSign, spanDigits, spanFraction]
  | inf s => cases s <;> simp [toStr, sToReal, scan, spanSign, spanDigits, spanFraction]

/-- The smallest `double` is a number to which `C145_stod_small` applies; half a million is one to which `C145_stod_normal` applies. -/
example : sToReal binary64 (toStr (.fin (2 ^ (-1074 : ℤ)))) = .assertFail := by
  refine C145_stod_small (Or.inr rfl) _ ⟨1, -1074, by norm_num [binary64], by norm_num [binary64], by norm_num [binary64], by simp⟩ (by positivity) ?_
  rw [abs_of_pos (by positivity)]
  exact two_mono (by norm_num [binary64])

end Verif.RealText
