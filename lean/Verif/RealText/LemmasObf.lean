import Verif.RealText.LemmasMore
import Verif.Base64.Theorems

/-! # ObfuscatedValue, and the decimal number is determined -/

namespace Verif.RealText

open Verif Ieee Spec Ieee.Spec

theorem nearest_unique' {x d d' : ℝ} {k j k' j' : ℤ} (hj : j ≤ j') (hd : d = k * 10 ^ j) (hk : |k| < 10 ^ 6) (he : Even k)
    (hd' : d' = k' * 10 ^ j') (he' : Even k') (h : |d - x| = |d' - x|) (hn : ∀ s, Six s → |d - x| ≤ |s - x|) : d = d' := by
  by_contra hne
  obtain ⟨a, rfl⟩ := Int.le.dest hj
  have hd2 : d' = ((k' * 10 ^ a : ℤ) : ℝ) * 10 ^ j := by
    rw [hd', zpow_add₀ (by norm_num), zpow_natCast]; push_cast; ring
  obtain ⟨n, hn'⟩ : ∃ n, n = k' * 10 ^ a := ⟨_, rfl⟩
  have hev : Even n := by rw [hn']; exact he'.mul_right _
  rw [← hn'] at hd2
  have hp := ten_pos j
  have hkn : k ≠ n := by rintro rfl; exact hne (hd.trans hd2.symm)
  have hmid : d + d' = 2 * x := by
    rcases abs_eq_abs.1 h with h | h
    · exact absurd (by linarith) hne
    · linarith
  obtain ⟨u, hu⟩ := he
  obtain ⟨w, hw⟩ := hev
  rcases lt_or_gt_of_ne hkn with hlt | hlt
  · have h1 := hn ((k + 1 : ℤ) * 10 ^ j) (six_of (by rw [abs_le]; rw [abs_lt] at hk; omega))
    have h2 : ((k + 2 : ℤ) : ℝ) ≤ n := by exact_mod_cast (by omega : k + 2 ≤ n)
    push_cast at h1 h2
    have h3 := mul_le_mul_of_nonneg_right h2 hp.le
    rw [← hd2] at h3
    have h4 : d < x := by rw [hd] at hmid ⊢; nlinarith
    have h5 : ((k : ℝ) + 1) * 10 ^ j = d + 10 ^ j := by rw [hd]; ring
    have h6 : ((k : ℝ) + 2) * 10 ^ j = d + 2 * 10 ^ j := by rw [hd]; ring
    rw [h5, abs_of_neg (by linarith), abs_of_nonpos (by linarith)] at h1
    linarith
  · have h1 := hn ((k - 1 : ℤ) * 10 ^ j) (six_of (by rw [abs_le]; rw [abs_lt] at hk; omega))
    have h2 : (n : ℝ) ≤ ((k - 2 : ℤ) : ℝ) := by exact_mod_cast (by omega : n ≤ k - 2)
    push_cast at h1 h2
    have h3 := mul_le_mul_of_nonneg_right h2 hp.le
    rw [← hd2] at h3
    have h4 : x < d := by rw [hd] at hmid ⊢; nlinarith
    have h5 : ((k : ℝ) - 1) * 10 ^ j = d - 10 ^ j := by rw [hd]; ring
    have h6 : ((k : ℝ) - 2) * 10 ^ j = d - 2 * 10 ^ j := by rw [hd]; ring
    rw [h5, abs_of_pos (by linarith), abs_of_nonneg (by linarith)] at h1
    linarith

theorem nearest_unique {x d d' : ℝ} (h : NearestSix x d) (h' : NearestSix x d') : d = d' := by
  by_contra hne
  have he : |d - x| = |d' - x| := le_antisymm (h.2.1 _ h'.1) (h'.2.1 _ h.1)
  obtain ⟨k, j, -, h1, h2, h3⟩ := h.2.2 ⟨d', h'.1, Ne.symm hne, he.symm⟩
  obtain ⟨k', j', -, h1', h2', h3'⟩ := h'.2.2 ⟨d, h.1, hne, he⟩
  rcases le_total j j' with hj | hj
  · exact hne (nearest_unique' hj h2 h1 h3 h2' h3' he h.2.1)
  · exact hne (nearest_unique' hj h2' h1' h3' h2 h3 he.symm h'.2.1).symm

theorem nearest_six {x d : ℝ} : NearestSix x d ↔ d = six x :=
  ⟨fun h => nearest_unique h (six_nearest x), fun h => h ▸ six_nearest x⟩

/-! ## The text is short and of ASCII characters -/

theorem isDigit_small {c : Char} (h : c.isDigit = true) : c.toNat < 256 := by
  simp only [Char.isDigit, ge_iff_le, Bool.and_eq_true, decide_eq_true_eq] at h
  have : c.toNat ≤ 57 := h.2
  omega

theorem fraction_small {ft fp : List Char} (h : Fraction ft fp) : ∀ c ∈ ft, c.toNat < 256 := by
  rcases h with ⟨rfl, -⟩ | ⟨rfl, h⟩
  · simp
  · intro c hc
    rcases List.mem_cons.1 hc with rfl | hc
    · decide
    · exact isDigit_small (h.2 c hc)

theorem exponent_small {et : List Char} {e : ℤ} (h : Exponent et e) : ∀ c ∈ et, c.toNat < 256 := by
  rcases h with ⟨rfl, -⟩ | ⟨x, ds, hx, hd, h⟩
  · simp
  · have hx' : x.toNat < 256 := by rcases hx with rfl | rfl <;> decide
    have key : ∀ c ∈ ds, c.toNat < 256 := fun c hc => isDigit_small (hd.2 c hc)
    intro c hc
    rcases h with ⟨rfl | rfl, -⟩ | ⟨rfl, -⟩
    · rcases List.mem_cons.1 hc with rfl | hc
      · exact hx'
      · exact key c hc
    · rcases List.mem_cons.1 hc with rfl | hc
      · exact hx'
      · rcases List.mem_cons.1 hc with rfl | hc
        · decide
        · exact key c hc
    · rcases List.mem_cons.1 hc with rfl | hc
      · exact hx'
      · rcases List.mem_cons.1 hc with rfl | hc
        · decide
        · exact key c hc

theorem numeral_small {t : List Char} {q : ℝ} (h : Numeral t q) : ∀ c ∈ t, c.toNat < 256 := by
  obtain ⟨neg, ip, ft, fp, et, e, rfl, hip, hf, he, -⟩ := h
  intro c hc
  simp only [List.mem_append] at hc
  rcases hc with ((hc | hc) | hc) | hc
  · cases neg
    · simp at hc
    · simp at hc; subst hc; decide
  · exact isDigit_small (hip.2 c hc)
  · exact fraction_small hf c hc
  · exact exponent_small he c hc

theorem ofByte_chr {c : Char} (h : c.toNat < 256) : ofByte (Base64.chr c) = c := by
  unfold ofByte Base64.chr Base64.byte
  simp only [Nat.mod_eq_of_lt h, Char.ofNat_toNat]

theorem map_ofByte {t : List Char} (h : ∀ c ∈ t, c.toNat < 256) : (t.map Base64.chr).map ofByte = t := by
  rw [List.map_map]
  conv_rhs => rw [← List.map_id t]
  exact List.map_congr_left fun c hc => ofByte_chr (h c hc)

theorem strip_length (ds : List Char) : (strip ds).length ≤ ds.length := by
  obtain ⟨k, hk⟩ := strip_zeros ds
  conv_rhs => rw [hk]
  simp

theorem fraction_length (ds : List Char) : (fraction ds).length ≤ ds.length + 1 := by
  unfold fraction
  split
  · simp
  · simp [strip_length]

theorem exponent_length {e : ℤ} (h : e.natAbs < 10 ^ 5) : (exponent e).length ≤ 7 := by
  unfold exponent
  simp only [List.length_cons]
  split
  · rw [fixed_length]; omega
  · have := (Nat.length_toDigits_le_iff (b := 10) (n := e.natAbs) (by norm_num) (k := 5) (by norm_num)).2 h
    omega

theorem layout_length {m : ℕ} {e : ℤ} (h : e.natAbs < 10 ^ 5) : (layout m e).length ≤ 20 := by
  have hl := fixed_length 6 m
  by_cases hr : -4 ≤ e ∧ e < 6
  · by_cases h0 : 0 ≤ e
    · rw [layout_fixed hr.2 h0, List.length_append]
      have := fraction_length ((fixed 6 m).drop (e.toNat + 1))
      simp only [List.length_take, List.length_drop, hl] at this ⊢
      omega
    · rw [layout_small hr.1 (by omega), List.length_cons]
      have := fraction_length (List.replicate (e.natAbs - 1) '0' ++ fixed 6 m)
      simp only [List.length_append, List.length_replicate, hl] at this ⊢
      omega
  · rw [layout_sci hr, List.length_append, List.length_append]
    have := fraction_length ((fixed 6 m).drop 1)
    have h2 := exponent_length h
    simp only [List.length_take, List.length_drop, hl] at this ⊢
    omega

theorem exponent_bound {F : Fmt} (hF : Dec F) {x : ℝ} (hx : Num F x) (h0 : x ≠ 0) : (digits |x|).2.natAbs < 10 ^ 5 := by
  have hd := digits_spec (abs_pos.2 h0)
  have hv : |six x| = (digits |x|).1 * 10 ^ ((digits |x|).2 - 5) := by
    unfold six
    rw [if_neg h0, abs_mul, abs_of_nonneg (by positivity : (0 : ℝ) ≤ ((digits |x|).1 : ℝ) * 10 ^ ((digits |x|).2 - 5))]
    split <;> simp
  obtain ⟨m, e, hme⟩ : ∃ m e, digits |x| = (m, e) := ⟨_, _, rfl⟩
  rw [hme] at hd hv ⊢
  obtain ⟨hm1, hm2, -⟩ := hd
  dsimp only at *
  have hlow := hF.low
  have hhigh := hF.high
  have hz := hF.zero
  have hq := hF.qmax
  have hlo : (10 : ℝ) ^ e ≤ |six x| := by
    rw [hv]
    have hm1' : (10 ^ 5 : ℝ) ≤ m := by exact_mod_cast hm1
    have := mul_le_mul_of_nonneg_right hm1' (ten_pos (e - 5)).le
    refine le_trans (le_of_eq ?_) this
    rw [zpow_sub₀ (by norm_num)]
    field_simp
  have hhi : |six x| < (10 : ℝ) ^ (e + 1) := by
    rw [hv]
    have hm1' : (m : ℝ) < 10 ^ 6 := by exact_mod_cast hm2
    have := mul_lt_mul_of_pos_right hm1' (ten_pos (e - 5))
    refine lt_of_lt_of_eq this ?_
    rw [zpow_sub₀ (by norm_num), zpow_add₀ (by norm_num)]
    field_simp
  have hup : (10 : ℝ) ^ e < 10 ^ (F.qmax + F.p) := by
    refine hlo.trans_lt ((six_top hF (num_top hx)).trans_lt ?_)
    have h1 : F.top < 2 ^ (F.qmax + F.p) := by
      unfold Fmt.top
      rw [zpow_add₀ (by norm_num), zpow_natCast, mul_comm]
      exact mul_lt_mul_of_pos_left (by linarith) (two_pos _)
    have h2 : ∀ n : ℕ, (2 : ℝ) ^ (n : ℤ) ≤ 10 ^ (n : ℤ) := fun n => by
      rw [zpow_natCast, zpow_natCast]; exact pow_le_pow_left₀ (by norm_num) (by norm_num) n
    obtain ⟨n, hn⟩ : ∃ n : ℕ, (n : ℤ) = F.qmax + F.p := ⟨(F.qmax + F.p).toNat, by omega⟩
    rw [← hn] at h1 ⊢
    exact h1.trans_le (h2 n)
  have hdown : (10 : ℝ) ^ (F.qmin - 1) < 10 ^ (e + 1) := by
    refine lt_of_le_of_lt ?_ hhi
    obtain ⟨n, hn⟩ := grid_mult (num_grid hx)
    have hn0 : n ≠ 0 := by rintro rfl; simp at hn; exact h0 hn
    have h1 : (2 : ℝ) ^ F.qmin ≤ |x| := by
      rw [hn, abs_mul, abs_of_pos (two_pos _)]
      have : (1 : ℝ) ≤ |(n : ℝ)| := by exact_mod_cast Int.one_le_abs hn0
      have h2 := two_pos F.qmin
      nlinarith
    have h2 : (2 : ℝ) ^ (F.qmin - 1) ≤ |six x| := by
      apply six_large
      refine le_trans (le_of_eq ?_) h1
      rw [zpow_sub₀ (by norm_num)]
      norm_num
      ring
    refine le_trans ?_ h2
    obtain ⟨b, hb⟩ : ∃ b : ℕ, (b : ℤ) = 1 - F.qmin := ⟨(1 - F.qmin).toNat, by omega⟩
    rw [show F.qmin - 1 = -(b : ℤ) by omega, zpow_lit, zpow_lit]
    apply one_div_le_one_div_of_le (by positivity)
    exact pow_le_pow_left₀ (by norm_num) (by norm_num) b
  have a1 := ten_lt hup
  have a2 := ten_lt hdown
  omega

theorem toStr_length {F : Fmt} (hF : Dec F) {x : FP} (hx : Val F x) : (toStr x).length ≤ 21 := by
  cases x with
  | nan => simp [toStr]
  | inf s => cases s <;> simp [toStr]
  | fin x =>
    by_cases h0 : x = 0
    · simp [toStr, h0]
    · rw [toStr_fin h0, List.length_append]
      have := layout_length (m := (digits |x|).1) (exponent_bound hF hx h0)
      split
      · simp only [List.length_singleton]; omega
      · simp only [List.length_nil]; omega

theorem toStr_small (x : FP) : ∀ c ∈ toStr x, c.toNat < 256 := by
  cases x with
  | nan => simp [toStr]
  | inf s => cases s <;> simp [toStr]
  | fin x => exact numeral_small (toStr_numeral x)

/-! ## Set and get -/

/-- What is read of a value that is set. -/
noncomputable def kept (F : Fmt) : FP → FP
  | .fin x => .fin (back F x)
  | _ => .fin 0

theorem kept_spec (F : Fmt) (x y : FP) : Kept F x y ↔ y = kept F x := by
  cases x with
  | nan => rfl
  | inf s => rfl
  | fin x =>
    constructor
    · rintro ⟨d, hd, rfl⟩; rw [nearest_six.1 hd]; rfl
    · rintro rfl; exact ⟨six x, six_nearest x, rfl⟩

theorem fromStr_toStr {F : Fmt} (hF : Dec F) {x : FP} (hx : Val F x) : fromStr F (toStr x) = kept F x := by
  cases x with
  | nan => simp [toStr, fromStr, collect, spanSign, spanDigits, spanFraction, strtod, scan, kept]
  | inf s => cases s <;> simp [toStr, fromStr, collect, spanSign, spanDigits, spanFraction, strtod, scan, kept]
  | fin x => rw [fromStr_numeral F (toStr_numeral x), rnd_six hF (num_top hx)]; rfl

theorem kept_val {F : Fmt} (hF : Dec F) {x : FP} (hx : Val F x) : Val F (kept F x) := by
  have h0 : Num F 0 := ⟨0, F.qmin, by norm_num, le_rfl, hF.good.q, by simp⟩
  cases x with
  | nan => exact h0
  | inf s => exact h0
  | fin x => exact back_num hF (num_top hx)

theorem set_get {F : Fmt} (hF : Dec F) {x : FP} (hx : Val F x) : ∃ o, set x = .ok o ∧ get F o = .ok (kept F x) := by
  have hl := toStr_length hF hx
  obtain ⟨t, h1, h2⟩ := Base64.C26_decode_inverts_encode_partial ((toStr x).map Base64.chr) (by
    rw [List.length_map]
    have : 4 * (((toStr x).length + 2) / 3) ≤ 4 * ((21 + 2) / 3) := Nat.mul_le_mul_left _ (Nat.div_le_div_right (by omega))
    omega)
  refine ⟨t, h1, ?_⟩
  unfold get
  rw [h2]
  show Outcome.ok (fromStr F (((toStr x).map Base64.chr).map ofByte)) = _
  rw [map_ofByte (toStr_small x), fromStr_toStr hF hx]

/-! ## Histories -/

theorem arith_val {F : Fmt} (hF : Dec F) (z : Bool) (op : Arith) {a b : FP} (ha : Val F a) (hb : Val F b) :
    Val F (arith F z op a b) := by
  have hr := rnd_val hF.good.p hF.good.q
  have h0 : Num F 0 := ⟨0, F.qmin, by norm_num, le_rfl, hF.good.q, by simp⟩
  cases op <;> cases a <;> cases b <;>
    simp only [arith, Ieee.add, Ieee.sub, Ieee.mul, Ieee.div, Ieee.neg] <;> repeat' split
  all_goals first
    | trivial
    | exact hr _
    | exact h0

/-- The operation of the specification. -/
noncomputable def cmd (F : Fmt) : Op → Cmd
  | .get => .read
  | .set v => .assign v
  | .compound .add v _ => .apply fun a => Ieee.add F a v
  | .compound .sub v _ => .apply fun a => Ieee.sub F a v
  | .compound .mul v _ => .apply fun a => Ieee.mul F a v
  | .compound .div v z => .apply fun a => Ieee.div F z a v

/-- Operands are values of the type; in debug builds divisors are not zero. -/
def OpOk (F : Fmt) (dbg : Bool) : Op → Prop
  | .get => True
  | .set v => Val F v
  | .compound op v _ => Val F v ∧ (dbg = true → op = .div → v ≠ .fin 0)

theorem divAssert_ok {F : Fmt} {dbg : Bool} {op : Arith} {v : FP} {z : Bool} (h : OpOk F dbg (.compound op v z)) :
    divAssert dbg op v = .ok () := by
  cases op with
  | div =>
    unfold divAssert
    cases dbg
    · rfl
    · simp [Outcome.check, h.2 rfl rfl]
  | _ => rfl

theorem run_play {F : Fmt} (hF : Dec F) (dbg : Bool) (ops : List Op) (hops : ∀ op ∈ ops, OpOk F dbg op) {o : List Base64.Byte} {a : FP}
    (ha : Val F a) (ho : get F o = .ok a) : run F dbg o ops = .ok (play (kept F) a (ops.map (cmd F))) := by
  induction ops generalizing o a with
  | nil => rfl
  | cons op ops ih =>
    have h1 := hops op List.mem_cons_self
    have h2 : ∀ op ∈ ops, OpOk F dbg op := fun op h => hops op (List.mem_cons_of_mem _ h)
    cases op with
    | get =>
      simp only [run, step, ho, Outcome.bind_ok, Outcome.pure_eq, ih h2 ha ho]
      rfl
    | set v =>
      obtain ⟨o', h3, h4⟩ := set_get hF h1
      simp only [run, step, h3, Outcome.bind_ok, Outcome.pure_eq, ih h2 (kept_val hF h1) h4]
      rfl
    | compound op v z =>
      have hv := arith_val hF z op ha h1.1
      obtain ⟨o', h3, h4⟩ := set_get hF hv
      simp only [run, step, divAssert_ok h1, ho, h3, h4, Outcome.bind_ok, Outcome.pure_eq, ih h2 (kept_val hF hv) h4]
      cases op <;> rfl

theorem play_id {F : Fmt} (keep : FP → FP) (a : FP) (l : List Cmd) (h : Always (fun v => keep v = v) a l) : play keep a l = play id a l := by
  induction l generalizing a with
  | nil => rfl
  | cons c l ih =>
    cases c with
    | read => simp only [play, ih a h]
    | assign v => simp only [play, id]; rw [h.1, ih v h.2]
    | apply f => simp only [play, id]; rw [h.1, ih _ h.2]

end Verif.RealText
