import Verif.FnTraits.Model

/-! # Specification of function traits

`CallSig env t r as`: an object of type `t` can be called with arguments of the types `as` and gives an `r` (for a pointer to member
function: through an object of its class). This is the language's view and does not mention the traits. -/

namespace Verif.FnTraits

inductive CallSig (env : Env) : Ty → Ty → List Ty → Prop
  | fn (q r as) : q.ellipsis = false → CallSig env (.fn q r as) r as
  | ptr (q r as) : q.ellipsis = false → CallSig env (.ptr (.fn q r as)) r as
  | memFn (o q r as) : q.ellipsis = false → CallSig env (.memFn o q r as) r as
  | cls (n q r as) : env n = some (q, r, as) → q.ellipsis = false → CallSig env (.cls n) r as
  | stdFn (t r as) : CallSig env t r as → CallSig env (.stdFn t) r as
  | cv (c v t r as) : CallSig env t r as → CallSig env (.cv c v t) r as
  | lref (t r as) : CallSig env t r as → CallSig env (.lref t) r as
  | rref (t r as) : CallSig env t r as → CallSig env (.rref t) r as
  /-- what `std::mem_fn` returns takes a pointer to the object first, which is as `const` and `volatile` as the member function -/
  | wrapPlain (o q r as) : q.ellipsis = false → q.const = false → q.volatile = false →
      CallSig env (.wrap (.memFn o q r as)) r (.ptr (.cls o) :: as)
  | wrapCv (o q r as) : q.ellipsis = false → q.const = true ∨ q.volatile = true →
      CallSig env (.wrap (.memFn o q r as)) r (.ptr (.cv q.const q.volatile (.cls o)) :: as)
  | wrapObj (o t) : CallSig env (.wrap (.memObj o t)) t [.ptr (.cls o)]

/-- Nothing but `const` and `volatile` behind the parameter list. -/
def Fq.Simple (q : Fq) : Prop := q.ref = false ∧ q.noexcept = false ∧ q.ellipsis = false

/-- Nothing at all behind the parameter list. -/
def Fq.Bare (q : Fq) : Prop := q.Simple ∧ q.const = false ∧ q.volatile = false

/-- The callable types without references. -/
inductive Direct (env : Env) : Ty → Prop
  | fn (q r as) : q.Bare → Direct env (.fn q r as)
  | ptr (q r as) : q.Bare → Direct env (.ptr (.fn q r as))
  | memFn (o q r as) : q.Simple → Direct env (.memFn o q r as)
  | cls (n q r as) : env n = some (q, r, as) → q.Simple → Direct env (.cls n)
  | stdFn (q r as) : q.Bare → Direct env (.stdFn (.fn q r as))
  | wrap (o q r as) : q.Simple → Direct env (.wrap (.memFn o q r as))
  | wrapObj (o t) : Direct env (.wrap (.memObj o t))

/-- The types for which the traits exist: the direct ones; `const` and `volatile` classes and `std::function`s, but no other `const`
object; and references to any direct type, whatever its qualifiers. -/
inductive Supported (env : Env) : Ty → Prop
  | direct (t) : Direct env t → Supported env t
  | cvCls (c v n) : Direct env (.cls n) → Supported env (.cv c v (.cls n))
  | cvStdFn (c v t) : Direct env (.stdFn t) → Supported env (.cv c v (.stdFn t))
  | lref (t) : Direct env t → Supported env (.lref t)
  | rref (t) : Direct env t → Supported env (.rref t)
  | lrefCv (c v t) : Direct env t → Supported env (.lref (.cv c v t))
  | rrefCv (c v t) : Direct env t → Supported env (.rref (.cv c v t))

/-- Types the language has, as far as callable things go: `std::function` is used with a function type, qualifiers are not nested,
and there are no references to references and no qualified references. -/
inductive Plain : Ty → Prop
  | scalar (n) : Plain (.scalar n)
  | cls (n) : Plain (.cls n)
  | ptr (t) : Plain (.ptr t)
  | fn (q r as) : Plain (.fn q r as)
  | memObj (o t) : Plain (.memObj o t)
  | memFn (o q r as) : Plain (.memFn o q r as)
  | stdFn (q r as) : Plain (.stdFn (.fn q r as))
  | wrap (t) : Plain (.wrap t)

inductive Wf : Ty → Prop
  | plain (t) : Plain t → Wf t
  | cv (c v t) : Plain t → Wf (.cv c v t)
  | lref (t) : Plain t → Wf (.lref t)
  | lrefCv (c v t) : Plain t → Wf (.lref (.cv c v t))
  | rref (t) : Plain t → Wf (.rref t)
  | rrefCv (c v t) : Plain t → Wf (.rref (.cv c v t))

end Verif.FnTraits
