/-! # `FnTraits` (Core/Utils/FnTraits.hpp)

The class template is a function from types to members, computed by the compiler. Types are modelled as terms; choosing the partial
specialisation is a match on the term; `none` stands for a program that is rejected. -/

namespace Verif.FnTraits

/-- What may follow the parameter list of a function type in C++17: `const`, `volatile`, a reference qualifier, `noexcept`, and whether
the parameter list ends with an ellipsis. -/
structure Fq where
  const : Bool := false
  volatile : Bool := false
  ref : Bool := false
  noexcept : Bool := false
  ellipsis : Bool := false
  deriving DecidableEq, Repr

/-- The types that occur. Simplified: classes and scalar types are numbers, the two reference qualifiers are not kept apart, and
arrays are left out. `cv c v t` is `t` with `const` if `c` and `volatile` if `v`. `wrap t` is what `std::mem_fn` returns for a
pointer to member of type `t` (`std::_Mem_fn<t>`, FnTraits.hpp:89-94). -/
inductive Ty where
  | scalar (n : Nat)
  | cls (n : Nat)
  | cv (c v : Bool) (t : Ty)
  | ptr (t : Ty)
  | lref (t : Ty)
  | rref (t : Ty)
  | fn (q : Fq) (ret : Ty) (args : List Ty)
  | memObj (owner : Nat) (t : Ty)
  | memFn (owner : Nat) (q : Fq) (ret : Ty) (args : List Ty)
  | stdFn (t : Ty)
  | wrap (t : Ty)

/-- The call operator of each class, if it has exactly one and this is not a template: `decltype(&T::operator())`, FnTraits.hpp:14. -/
abbrev Env := Nat → Option (Fq × Ty × List Ty)

/-- The members `Return`, the arguments (from which `Type`, `arity` and `Arg` are computed, FnTraits.hpp:35-52) and `Owner`
(FnTraits.hpp:65-80). -/
structure Traits where
  ret : Ty
  args : List Ty
  owner : Option Ty

/-- `const` and `volatile` added to a type; nothing is wrapped when there is neither. Models how C++ spells the types
`TC`, `const TC`, `volatile TC`, `const volatile TC` in FnTraits.hpp:65-80. -/
def addCv (c v : Bool) (t : Ty) : Ty := if c || v then .cv c v t else t

/-- `FnTraits<TR(TArgs...)>`, FnTraits.hpp:31-53: matches function types without anything behind the parameter list. -/
def ofFn (q : Fq) (r : Ty) (as : List Ty) : Option Traits :=
  match q with
  | ⟨false, false, false, false, false⟩ => some ⟨r, as, none⟩
  | _ => none

/-- The four specialisations for pointers to member functions, FnTraits.hpp:61-81. -/
def ofMemFn (o : Nat) (q : Fq) (r : Ty) (as : List Ty) : Option Traits :=
  match q with
  | ⟨c, v, false, false, false⟩ => some ⟨r, as, some (.lref (addCv c v (.cls o)))⟩
  | _ => none

/-- The primary template, FnTraits.hpp:13-16, for a class: the traits of its call operator. -/
def ofClass (env : Env) (n : Nat) : Option Traits :=
  match env n with
  | some (q, r, as) => ofMemFn n q r as
  | none => none

/-- The primary template for `const std::function<R(A...)>` (and `volatile`): `operator()` of `std::function` is a `const` member. -/
def ofStdFunction : Ty → Option Traits
  | .fn ⟨false, false, false, false, false⟩ r as => some ⟨r, as, some (.lref (.cv true false (.stdFn (.fn {} r as))))⟩
  | _ => none

/-- The specialisations for what `std::mem_fn` returns, FnTraits.hpp:96-119. -/
def ofWrap : Ty → Option Traits
  | .memObj o t => some ⟨t, [.ptr (.cls o)], none⟩
  | .memFn o ⟨c, v, false, false, false⟩ r as => some ⟨r, .ptr (addCv c v (.cls o)) :: as, none⟩
  | _ => none

/-- `FnTraits<T>`, FnTraits.hpp:13-157: the reference specialisations (lines 126-157) drop the reference and then `const` and
`volatile`; function pointers (lines 56-59) match only without `const` or `volatile`; all that is left goes to the primary template,
which needs a class. -/
def traits (env : Env) : Ty → Option Traits
  | .fn q r as => ofFn q r as
  | .ptr (.fn q r as) => ofFn q r as
  | .memFn o q r as => ofMemFn o q r as
  | .cls n => ofClass env n
  | .cv _ _ (.cls n) => ofClass env n
  | .cv _ _ (.stdFn t) => ofStdFunction t
  | .stdFn t => traits env t
  | .wrap t => ofWrap t
  | .lref (.cv _ _ t) => traits env t
  | .lref t => traits env t
  | .rref (.cv _ _ t) => traits env t
  | .rref t => traits env t
  | _ => none

/-- `std::remove_reference_t`, used in FnTraits.hpp:45. -/
def removeReference : Ty → Ty
  | .lref t => t
  | .rref t => t
  | t => t

/-- `std::remove_pointer_t`, used in FnTraits.hpp:45: also for `const` and `volatile` pointers. -/
def removePointer : Ty → Ty
  | .ptr t => t
  | .cv _ _ (.ptr t) => t
  | t => t

/-- `Impl::MemFnType<C, R, A...>::Type`, FnTraits.hpp:20-28: the qualifiers of the class become those of the function. -/
def implMemFnType (c : Ty) (r : Ty) (as : List Ty) : Option Ty :=
  match c with
  | .cls o => some (.memFn o {} r as)
  | .cv c v (.cls o) => some (.memFn o { const := c, volatile := v } r as)
  | _ => none

/-- `FnTraits<F>::MemFnType<TOwner>`, FnTraits.hpp:43-47. -/
def Traits.memFnType (x : Traits) (owner : Ty) : Option Ty :=
  implMemFnType (removePointer (removeReference owner)) x.ret x.args

/-- `FnTraits<F>::Type`, FnTraits.hpp:39. -/
def Traits.type (x : Traits) : Ty := .fn {} x.ret x.args

/-- `FnTraits<F>::arity`, FnTraits.hpp:49. -/
def Traits.arity (x : Traits) : Nat := x.args.length

/-- `FnTraits<F>::Arg<i>`, FnTraits.hpp:51-53: `std::tuple_element_t` rejects an index that is too large. -/
def Traits.arg (x : Traits) (i : Nat) : Option Ty := x.args[i]?

end Verif.FnTraits
