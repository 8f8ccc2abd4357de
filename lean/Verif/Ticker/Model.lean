import Verif.Basic

/-!
# Ticker

Source: `include/SSVUtils/Ticker/Inc/Ticker.hpp`, `Src/Ticker.cpp`.

`FT` is `float`. The model is written for any type with the four operations the code uses and assumes nothing about them; the
theorems about sums take exact rational numbers.
-/

namespace Verif.Ticker

/-- The operations on `FT`: `0.f`, `a + b`, `a * bool`, `a < b`. -/
structure Ops (F : Type) where
  zero : F
  add : F → F → F
  times : F → Bool → F
  lt : F → F → Bool

/-- The members, Ticker.hpp:17-19. -/
structure Ticker (F : Type) where
  target : F
  current : F
  total : F
  running : Bool
  loop : Bool
  ticks : Nat

variable {F : Type} (o : Ops F)

/-- The constructor, Ticker.cpp:11-14, with the default initialisers of Ticker.hpp:17-19. -/
def Ticker.init (target : F) (running : Bool) : Ticker F := ⟨target, o.zero, o.zero, running, true, 0⟩

/-- `resetCurrent`, Ticker.cpp:59-62. -/
def Ticker.resetCurrent (t : Ticker F) : Ticker F := { t with current := o.zero }

/-- `resetTicks`, Ticker.cpp:63-66. -/
def Ticker.resetTicks (t : Ticker F) : Ticker F := { t with ticks := 0 }

/-- `resetTotal`, Ticker.cpp:67-70. -/
def Ticker.resetTotal (t : Ticker F) : Ticker F := { t with total := o.zero }

/-- `resetAll`, Ticker.cpp:71-76. -/
def Ticker.resetAll (t : Ticker F) : Ticker F := ((t.resetCurrent o).resetTicks).resetTotal o

/-- `pause`, Ticker.cpp:35-38. -/
def Ticker.pause (t : Ticker F) : Ticker F := { t with running := false }

/-- `resume`, Ticker.cpp:39-42. -/
def Ticker.resume (t : Ticker F) : Ticker F := { t with running := true }

/-- `stop`, Ticker.cpp:43-47. -/
def Ticker.stop (t : Ticker F) : Ticker F := (t.resetCurrent o).pause

/-- `restart()`, Ticker.cpp:48-52. -/
def Ticker.restart (t : Ticker F) : Ticker F := (t.resetCurrent o).resume

/-- `restart(FT)`, Ticker.cpp:53-57. -/
def Ticker.restartTo (t : Ticker F) (target : F) : Ticker F := ({ t with target := target } : Ticker F).restart o

/-- `setLoop`, Ticker.cpp:78-81. -/
def Ticker.setLoop (t : Ticker F) (b : Bool) : Ticker F := { t with loop := b }

/-- `update(FT)`, Ticker.cpp:16-28. `ticks` is a `size_t`. -/
def Ticker.update (t : Ticker F) (ft : F) : Ticker F × Bool :=
  let increment := o.times ft t.running
  let t := { t with current := o.add t.current increment, total := o.add t.total increment }
  if o.lt t.current t.target then (t, false)
  else
    let t := { t with ticks := (t.ticks + 1) % 2 ^ 64 }
    let t := t.resetCurrent o
    ({ t with running := t.loop }, true)

/-- `update(FT, FT)`, Ticker.cpp:29-33. -/
def Ticker.updateTo (t : Ticker F) (ft target : F) : Ticker F × Bool :=
  ({ t with target := target } : Ticker F).update o ft

/-- The calls a user can make. -/
inductive Op (F : Type) where
  | update (ft : F)
  | updateTo (ft target : F)
  | pause | resume | stop | restart
  | restartTo (target : F)
  | resetCurrent | resetTicks | resetTotal | resetAll
  | setLoop (b : Bool)
  deriving DecidableEq

/-- One call; `none` if it returns nothing. -/
def step (t : Ticker F) : Op F → Ticker F × Option Bool
  | .update ft => let r := t.update o ft; (r.1, some r.2)
  | .updateTo ft target => let r := t.updateTo o ft target; (r.1, some r.2)
  | .pause => (t.pause, none)
  | .resume => (t.resume, none)
  | .stop => (t.stop o, none)
  | .restart => (t.restart o, none)
  | .restartTo target => (t.restartTo o target, none)
  | .resetCurrent => (t.resetCurrent o, none)
  | .resetTicks => (t.resetTicks, none)
  | .resetTotal => (t.resetTotal o, none)
  | .resetAll => (t.resetAll o, none)
  | .setLoop b => (t.setLoop b, none)

/-- What a user sees of one call: the call, `isRunning()` before it, and its result. -/
structure Seen (F : Type) where
  op : Op F
  wasRunning : Bool
  result : Option Bool
  deriving DecidableEq

/-- A history of calls. -/
def run (t : Ticker F) : List (Op F) → Ticker F × List (Seen F)
  | [] => (t, [])
  | op :: ops =>
    let r := step o t op
    let r' := run r.1 ops
    (r'.1, ⟨op, t.running, r.2⟩ :: r'.2)

end Verif.Ticker
