import Verif.FnTraits.Spec

/-! # Function traits (C167) -/

namespace Verif.FnTraits

theorem ofFn_some {q r as} (h : q.Bare) : ofFn q r as = some ⟨r, as, none⟩ := by
  obtain ⟨c, v, rf, n, e⟩ := q
  obtain ⟨⟨h1, h2, h3⟩, h4, h5⟩ := h
  simp only at h1 h2 h3 h4 h5
  subst h1 h2 h3 h4 h5; rfl

theorem ofFn_inv {q r as x} (h : ofFn q r as = some x) : q.Bare ∧ x = ⟨r, as, none⟩ := by
  obtain ⟨c, v, rf, n, e⟩ := q
  cases c <;> cases v <;> cases rf <;> cases n <;> cases e <;> simp [ofFn] at h
  exact ⟨⟨⟨rfl, rfl, rfl⟩, rfl, rfl⟩, h.symm⟩

theorem ofMemFn_some {o q r as} (h : q.Simple) :
    ofMemFn o q r as = some ⟨r, as, some (.lref (addCv q.const q.volatile (.cls o)))⟩ := by
  obtain ⟨c, v, rf, n, e⟩ := q
  obtain ⟨h1, h2, h3⟩ := h
  simp only at h1 h2 h3
  subst h1 h2 h3; rfl

theorem ofMemFn_inv {o q r as x} (h : ofMemFn o q r as = some x) :
    q.Simple ∧ x = ⟨r, as, some (.lref (addCv q.const q.volatile (.cls o)))⟩ := by
  obtain ⟨c, v, rf, n, e⟩ := q
  cases rf <;> cases n <;> cases e <;> simp [ofMemFn] at h
  exact ⟨⟨rfl, rfl, rfl⟩, h.symm⟩

theorem ofClass_inv {env n x} (h : ofClass env n = some x) : ∃ q r as, env n = some (q, r, as) ∧ q.Simple ∧
    x = ⟨r, as, some (.lref (addCv q.const q.volatile (.cls n)))⟩ := by
  rw [ofClass] at h
  cases he : env n with
  | none => rw [he] at h; cases h
  | some y =>
    obtain ⟨q, r, as⟩ := y
    rw [he] at h
    obtain ⟨hq, hx⟩ := ofMemFn_inv h
    exact ⟨q, r, as, rfl, hq, hx⟩

theorem traits_direct {env t} (h : Direct env t) :
    ∃ x, traits env t = some x ∧ CallSig env t x.ret x.args := by
  cases h with
  | fn q r as hq => exact ⟨_, by rw [traits, ofFn_some hq], .fn _ _ _ hq.1.2.2⟩
  | ptr q r as hq => exact ⟨_, by rw [traits, ofFn_some hq], .ptr _ _ _ hq.1.2.2⟩
  | memFn o q r as hq => exact ⟨_, by rw [traits, ofMemFn_some hq], .memFn _ _ _ _ hq.2.2⟩
  | cls n q r as he hq => exact ⟨_, by rw [traits, ofClass, he]; exact ofMemFn_some hq, .cls _ q _ _ he hq.2.2⟩
  | stdFn q r as hq => exact ⟨_, by rw [traits, traits, ofFn_some hq], .stdFn _ _ _ (.fn _ _ _ hq.1.2.2)⟩
  | wrap o q r as hq =>
    obtain ⟨c, v, rf, n, e⟩ := q
    obtain ⟨h1, h2, h3⟩ := hq
    simp only at h1 h2 h3
    subst h1 h2 h3
    refine ⟨_, by rw [traits, ofWrap], ?_⟩
    cases c <;> cases v
    · exact .wrapPlain o _ r as rfl rfl rfl
    · exact .wrapCv o ⟨false, true, false, false, false⟩ r as rfl (.inr rfl)
    · exact .wrapCv o ⟨true, false, false, false, false⟩ r as rfl (.inl rfl)
    · exact .wrapCv o ⟨true, true, false, false, false⟩ r as rfl (.inl rfl)
  | wrapObj o t => exact ⟨_, by rw [traits, ofWrap], .wrapObj o t⟩

theorem traits_lref {env t} (h : Plain t) : traits env (.lref t) = traits env t := by
  cases h <;> rfl
theorem traits_rref {env t} (h : Plain t) : traits env (.rref t) = traits env t := by
  cases h <;> rfl

theorem Direct.plain {env t} (h : Direct env t) : Plain t := by cases h <;> constructor

/-- A signature is unique. -/
theorem CallSig.unique {env t r as} (h : CallSig env t r as) : ∀ {r' as'}, CallSig env t r' as' → r' = r ∧ as' = as := by
  induction h with
  | fn => intro _ _ h'; cases h'; exact ⟨rfl, rfl⟩
  | ptr => intro _ _ h'; cases h'; exact ⟨rfl, rfl⟩
  | memFn => intro _ _ h'; cases h'; exact ⟨rfl, rfl⟩
  | cls n q r as he =>
    intro _ _ h'
    cases h' with
    | cls _ _ _ _ he' => rw [he] at he'; simp only [Option.some.injEq, Prod.mk.injEq] at he'; exact ⟨he'.2.1.symm, he'.2.2.symm⟩
  | stdFn _ _ _ _ ih => intro _ _ h'; cases h' with | stdFn _ _ _ h => exact ih h
  | cv _ _ _ _ _ _ ih => intro _ _ h'; cases h' with | cv _ _ _ _ _ h => exact ih h
  | lref _ _ _ _ ih => intro _ _ h'; cases h' with | lref _ _ _ h => exact ih h
  | rref _ _ _ _ ih => intro _ _ h'; cases h' with | rref _ _ _ h => exact ih h
  | wrapPlain o q r as h1 h2 h3 =>
    intro _ _ h'
    cases h' with
    | wrapPlain => exact ⟨rfl, rfl⟩
    | wrapCv _ _ _ _ _ h => rw [h2, h3] at h; simp at h
  | wrapCv o q r as h1 h2 =>
    intro _ _ h'
    cases h' with
    | wrapPlain _ _ _ _ _ h3 h4 => rw [h3, h4] at h2; simp at h2
    | wrapCv => exact ⟨rfl, rfl⟩
  | wrapObj => intro _ _ h'; cases h'; exact ⟨rfl, rfl⟩

theorem direct_of_traits {env t x} (hp : Plain t) (h : traits env t = some x) : Direct env t := by
  cases hp with
  | scalar n => simp [traits] at h
  | cls n =>
    rw [traits] at h
    obtain ⟨q, r, as, he, hq, _⟩ := ofClass_inv h
    exact .cls n q r as he hq
  | ptr t =>
    cases t with
    | fn q r as => rw [traits] at h; exact .ptr _ _ _ (ofFn_inv h).1
    | _ => simp [traits] at h
  | fn q r as => rw [traits] at h; exact .fn _ _ _ (ofFn_inv h).1
  | memObj o t => simp [traits] at h
  | memFn o q r as => rw [traits] at h; exact .memFn _ _ _ _ (ofMemFn_inv h).1
  | stdFn q r as => rw [traits, traits] at h; exact .stdFn _ _ _ (ofFn_inv h).1
  | wrap t =>
    rw [traits] at h
    cases t with
    | memObj o t => exact .wrapObj o t
    | memFn o q r as =>
      obtain ⟨c, v, rf, n, e⟩ := q
      cases rf <;> cases n <;> cases e <;> simp [ofWrap] at h
      exact .wrap _ _ _ _ ⟨rfl, rfl, rfl⟩
    | _ => simp [ofWrap] at h

/-- **C167.** Whenever the traits of a supported type are used, they exist, and `Return`, `Arg` and `arity` describe the only
signature with which an object of that type can be called: the same result type, as many arguments, and each of its type. -/
theorem C167_signature (env : Env) (t : Ty) (h : Supported env t) :
    ∃ x, traits env t = some x ∧ ∀ r as, CallSig env t r as ↔
      x.ret = r ∧ x.arity = as.length ∧ ∀ i, x.arg i = as[i]? := by
  suffices hs : ∃ x, traits env t = some x ∧ CallSig env t x.ret x.args by
    obtain ⟨x, hx, hc⟩ := hs
    refine ⟨x, hx, fun r as => ⟨fun h' => ?_, fun ⟨h1, _, h3⟩ => ?_⟩⟩
    · obtain ⟨rfl, rfl⟩ := hc.unique h'
      exact ⟨rfl, rfl, fun _ => rfl⟩
    · have : x.args = as := List.ext_getElem? h3
      rw [← h1, ← this]; exact hc
  cases h with
  | direct _ h => exact traits_direct h
  | cvCls c v n h =>
    obtain ⟨x, hx, hc⟩ := traits_direct h
    exact ⟨x, hx, .cv _ _ _ _ _ hc⟩
  | cvStdFn c v t h =>
    cases h with
    | stdFn q r as hq =>
      obtain ⟨c', v', rf, n, e⟩ := q
      obtain ⟨⟨h1, h2, h3⟩, h4, h5⟩ := hq
      simp only at h1 h2 h3 h4 h5
      subst h1 h2 h3 h4 h5
      exact ⟨_, by rw [traits, ofStdFunction], .cv _ _ _ _ _ (.stdFn _ _ _ (.fn _ _ _ rfl))⟩
  | lref t h =>
    obtain ⟨x, hx, hc⟩ := traits_direct h
    exact ⟨x, (traits_lref h.plain).trans hx, .lref _ _ _ hc⟩
  | rref t h =>
    obtain ⟨x, hx, hc⟩ := traits_direct h
    exact ⟨x, (traits_rref h.plain).trans hx, .rref _ _ _ hc⟩
  | lrefCv c v t h =>
    obtain ⟨x, hx, hc⟩ := traits_direct h
    exact ⟨x, by rw [traits]; exact hx, .lref _ _ _ (.cv _ _ _ _ _ hc)⟩
  | rrefCv c v t h =>
    obtain ⟨x, hx, hc⟩ := traits_direct h
    exact ⟨x, by rw [traits]; exact hx, .rref _ _ _ (.cv _ _ _ _ _ hc)⟩

/-- **C167.** The types that have traits are exactly the supported ones. -/
theorem C167_supported (env : Env) (t : Ty) (hw : Wf t) : (traits env t).isSome = true ↔ Supported env t := by
  constructor
  · intro h
    obtain ⟨x, hx⟩ := Option.isSome_iff_exists.1 h
    cases hw with
    | plain _ hp => exact .direct _ (direct_of_traits hp hx)
    | cv c v t hp =>
      cases hp with
      | cls n => rw [traits] at hx; exact .cvCls _ _ _ (direct_of_traits (.cls n) (by rw [traits]; exact hx))
      | stdFn q r as =>
        obtain ⟨c', v', rf, n, e⟩ := q
        cases c' <;> cases v' <;> cases rf <;> cases n <;> cases e <;> simp [traits, ofStdFunction] at hx
        exact .cvStdFn _ _ _ (.stdFn _ _ _ ⟨⟨rfl, rfl, rfl⟩, rfl, rfl⟩)
      | _ => simp [traits] at hx
    | lref t hp => exact .lref _ (direct_of_traits hp ((traits_lref hp).symm.trans hx))
    | rref t hp => exact .rref _ (direct_of_traits hp ((traits_rref hp).symm.trans hx))
    | lrefCv c v t hp => rw [traits] at hx; exact .lrefCv _ _ _ (direct_of_traits hp hx)
    | rrefCv c v t hp => rw [traits] at hx; exact .rrefCv _ _ _ (direct_of_traits hp hx)
  · intro h
    obtain ⟨x, hx, _⟩ := C167_signature env t h
    rw [hx]; rfl

/-- **C167 (violated for `noexcept`).** Since `noexcept` is part of the type, a function, function pointer, member function or
closure that promises not to throw can be called but has no traits. -/
theorem C167_noexcept_rejected (env : Env) (q : Fq) (r : Ty) (as : List Ty) (o n : Nat) (hq : q.noexcept = true) (he : q.ellipsis = false)
    (hn : env n = some (q, r, as)) :
    (CallSig env (.fn q r as) r as ∧ traits env (.fn q r as) = none) ∧
    (CallSig env (.ptr (.fn q r as)) r as ∧ traits env (.ptr (.fn q r as)) = none) ∧
    (CallSig env (.memFn o q r as) r as ∧ traits env (.memFn o q r as) = none) ∧
    (CallSig env (.cls n) r as ∧ traits env (.cls n) = none) := by
  have h1 : ofFn q r as = none := by
    cases h : ofFn q r as with
    | none => rfl
    | some x => have := (ofFn_inv h).1.1.2.1; rw [hq] at this; cases this
  have h2 : ∀ o, ofMemFn o q r as = none := by
    intro o
    cases h : ofMemFn o q r as with
    | none => rfl
    | some x => have := (ofMemFn_inv h).1.2.1; rw [hq] at this; cases this
  refine ⟨⟨.fn _ _ _ he, by rw [traits, h1]⟩, ⟨.ptr _ _ _ he, by rw [traits, h1]⟩, ⟨.memFn _ _ _ _ he, by rw [traits, h2]⟩,
    ⟨.cls _ q _ _ hn he, ?_⟩⟩
  rw [traits, ofClass, hn]
  exact h2 n

/-- **C167 (violated for `const` pointers).** A `const` or `volatile` function pointer has no traits, although a reference to it does. -/
theorem C167_const_pointer_rejected (env : Env) (c v : Bool) (r : Ty) (as : List Ty) :
    traits env (.cv c v (.ptr (.fn {} r as))) = none ∧
    traits env (.lref (.cv c v (.ptr (.fn {} r as)))) = some ⟨r, as, none⟩ := by
  constructor
  · simp [traits]
  · rw [traits, traits]; rfl

/-- **C167 (round trip).** From the traits of a member function, `MemFnType<Owner>` is the type of the member function again. -/
theorem C167_member_round_trip (env : Env) (o : Nat) (c v : Bool) (r : Ty) (as : List Ty) :
    ∃ x ow, traits env (.memFn o { const := c, volatile := v } r as) = some x ∧ x.owner = some ow ∧
      x.memFnType ow = some (.memFn o { const := c, volatile := v } r as) := by
  refine ⟨_, _, rfl, rfl, ?_⟩
  cases c <;> cases v <;> rfl

/-- **C167.** `MemFnType<TOwner>` is the same for a class, references to it and pointers to it, and is the member function of that class
with the signature of the function and the qualifiers of the class; the traits of this member function are the signature again. -/
theorem C167_member_type (env : Env) (x : Traits) (o : Nat) (c v : Bool) (c' v' : Bool) (hcv : c = true ∨ v = true) :
    (∀ ow ∈ [Ty.cls o, .lref (.cls o), .rref (.cls o), .ptr (.cls o), .lref (.ptr (.cls o)), .cv c' v' (.ptr (.cls o)), .lref (.cv c' v' (.ptr (.cls o)))],
      x.memFnType ow = some (.memFn o {} x.ret x.args)) ∧
    (∀ t, t = Ty.cv c v (.cls o) → ∀ ow ∈ [t, .lref t, .rref t, .ptr t, .lref (.ptr t), .cv c' v' (.ptr t), .lref (.cv c' v' (.ptr t))],
      x.memFnType ow = some (.memFn o { const := c, volatile := v } x.ret x.args)) ∧
    (∃ y, traits env (.memFn o { const := c, volatile := v } x.ret x.args) = some y ∧ y.type = .fn {} x.ret x.args ∧
      y.owner = some (.lref (.cv c v (.cls o)))) := by
  refine ⟨?_, ?_, ⟨_, rfl, rfl, ?_⟩⟩
  · intro ow h
    simp only [List.mem_cons, List.not_mem_nil, or_false] at h
    rcases h with rfl | rfl | rfl | rfl | rfl | rfl | rfl <;> rfl
  · rintro t rfl ow h
    simp only [List.mem_cons, List.not_mem_nil, or_false] at h
    rcases h with rfl | rfl | rfl | rfl | rfl | rfl | rfl <;> rfl
  · rcases hcv with rfl | rfl
    · rfl
    · cases c <;> rfl

/-- **C167 (owners).** For a class with a call operator, with any qualifiers and references, `MemFnType<Owner>` is the type of the call
operator. Functions, function pointers, `std::function` and what `std::mem_fn` returns have no owner; a `const std::function` has one. -/
theorem C167_owner (env : Env) (n : Nat) (q : Fq) (r : Ty) (as : List Ty) (c v : Bool) (hn : env n = some (q, r, as)) (hq : q.Simple) :
    (∀ t ∈ [Ty.cls n, .lref (.cls n), .rref (.cls n), .cv c v (.cls n), .lref (.cv c v (.cls n)), .rref (.cv c v (.cls n))],
      ∃ x ow, traits env t = some x ∧ x.owner = some ow ∧ x.memFnType ow = some (.memFn n q r as)) ∧
    (∀ t ∈ [Ty.fn {} r as, .ptr (.fn {} r as), .stdFn (.fn {} r as), .wrap (.memFn n q r as)],
      ∃ x, traits env t = some x ∧ x.owner = none) ∧
    (∃ x, traits env (.cv c v (.stdFn (.fn {} r as))) = some x ∧ x.owner = some (.lref (.cv true false (.stdFn (.fn {} r as))))) := by
  obtain ⟨c', v', rf, ne, e⟩ := q
  obtain ⟨h1, h2, h3⟩ := hq
  simp only at h1 h2 h3
  subst h1 h2 h3
  refine ⟨?_, ?_, ⟨_, rfl, rfl⟩⟩
  · have hc : ofClass env n = some ⟨r, as, some (.lref (addCv c' v' (.cls n)))⟩ := by rw [ofClass, hn]; rfl
    have hm : Traits.memFnType ⟨r, as, some (.lref (addCv c' v' (.cls n)))⟩ (.lref (addCv c' v' (.cls n))) =
        some (.memFn n ⟨c', v', false, false, false⟩ r as) := by cases c' <;> cases v' <;> rfl
    intro t ht
    refine ⟨_, _, ?_, rfl, hm⟩
    simp only [List.mem_cons, List.not_mem_nil, or_false] at ht
    rcases ht with rfl | rfl | rfl | rfl | rfl | rfl <;> exact hc
  · intro t ht
    simp only [List.mem_cons, List.not_mem_nil, or_false] at ht
    rcases ht with rfl | rfl | rfl | rfl <;> exact ⟨_, rfl, rfl⟩

/-- A closure with a `const` call operator `int(char, float)`: a supported type, also through `const&`. -/
example : Supported (fun n => if n = 7 then some ({ const := true }, .scalar 0, [.scalar 1, .scalar 2]) else none) (.lref (.cv true false (.cls 7))) :=
  .lrefCv _ _ _ (.cls 7 { const := true } (.scalar 0) [.scalar 1, .scalar 2] (by simp) ⟨rfl, rfl, rfl⟩)
example : Wf (.lref (.cv true false (.stdFn (.fn {} (.scalar 0) [.scalar 1])))) := .lrefCv _ _ _ (.stdFn _ _ _)

end Verif.FnTraits
