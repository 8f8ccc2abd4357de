import Verif.Log.Model

/-!
# The log, used by several threads

`LogImplEnabled.hpp` again, now with the mutex `LOut::mtx` and any number of threads: every
operation is split into the steps that another thread can see (one character put on `std::cout`, one
character put into the log stream, one assignment), and a schedule says which thread takes the next
step.

Simplifications: memory is sequentially consistent (the operations protected by the mutex, and
single characters put on `std::cout`, are free of data races by the standard; `setLogSuppressed` is
not, so the theorems that compare with a single thread do not let the threads call it); locking the
mutex twice from the same thread is undefined by the standard, here the thread waits for ever, which
is what a POSIX mutex does.
-/

namespace Verif.Log.Threads

open Verif.Stringify

/-- What a thread does in one call, step by step: an update of the shared state (what follows may
depend on the state before the update), locking and unlocking the mutex. -/
inductive Prog where
  | done
  | act (upd : LogSt → LogSt) (next : LogSt → Prog)
  | acquire (next : Prog)
  | release (next : Prog)

/-- `std::cout << t`, character by character. -/
def coutPut : List Char → Prog → Prog
  | [], k => k
  | c :: cs, k => .act (fun s => { s with cout := put [c] s.cout }) (fun _ => coutPut cs k)

/-- `getLogStream() << t`, character by character. -/
def logPut : List Char → Prog → Prog
  | [], k => k
  | c :: cs, k => .act (fun s => { s with log := s.log ++ [c] }) (fun _ => logPut cs k)

/-- An assignment to the cache of console formats — `ConsoleFmtImplUnix.hpp` 119-146. -/
def setCache (c : Cache) (k : Prog) : Prog :=
  .act (fun s => { s with cout := ⟨s.cout.out, c⟩ }) (fun _ => k)

/-- Something that is streamed to `std::cout`: its text is put there character by character, and the
cache is changed. -/
def coutDo (p : St → St) (k : Prog) : Prog :=
  .act id (fun s => coutPut (p ⟨[], s.cout.cache⟩).out (setCache (p ⟨[], s.cout.cache⟩).cache k))

/-- Something that is streamed to the log stream. -/
def logDo (p : St → St) (k : Prog) : Prog :=
  .act id (fun s => logPut (p ⟨[], s.cout.cache⟩).out (setCache (p ⟨[], s.cout.cache⟩).cache k))

/-- `std::lock_guard<std::mutex> g{lo().mtx}; body` — the mutex is released at the end of the
block. -/
def lockGuard (body : Prog → Prog) (k : Prog) : Prog := .acquire (body (.release k))

/-- `std::cout << getUniqueColor(tStr)` — `LogImplEnabled.hpp` 24-35, 79. -/
def uniqueColorSteps (con : Con) (t : List Char) (k : Prog) : Prog :=
  .act id (fun s =>
    match findColor t s.colors with
    | some c => coutDo (setColorFG con c) k
    | none =>
      .act (fun s => { s with colors := s.colors ++ [(t, colorOfIdx s.lastColorIdx)] }) (fun _ =>
        .act (fun s => { s with lastColorIdx := s.lastColorIdx + 1 }) (fun _ =>
          coutDo (setColorFG con (colorOfIdx s.lastColorIdx)) k)))

/-- The title part of `operator<<` — `LogImplEnabled.hpp` 76-84. -/
def titleSteps (con : Con) (k : Prog) : Prog :=
  .act id (fun s =>
    match s.title with
    | [] => k
    | c :: cs =>
      let tStr := ['['] ++ (c :: cs) ++ [']', ' ']
      uniqueColorSteps con tStr (coutDo (setStyle con .bold) (coutPut (padded tStr)
        (logPut (padded tStr) (.act (fun s => { s with title := [] }) (fun _ => k))))))

/-- What `lo() << value` does with the mutex locked — `LogImplEnabled.hpp` 74-91. -/
def valSteps (con : Con) (lit : List Char) (v : Val) (k : Prog) : Prog :=
  .act id (fun s =>
    if s.suppressed then k
    else
      titleSteps con (coutDo (resetFmt con) (coutDo (stringify con true lit v)
        (coutDo (resetFmt con) (logDo (stringify con false lit v) k)))))

/-- What `lo(mTitle)` does with the mutex locked — `LogImplEnabled.hpp` 123. -/
def setTitleSteps (con : Con) (lit : List Char) (v : Val) (k : Prog) : Prog :=
  .act id (fun s =>
    setCache (toStr con lit v s.cout.cache).2
      (.act (fun s' => { s' with title := (toStr con lit v s.cout.cache).1 }) (fun _ => k)))

/-- The operations on the log: values (`LogImplEnabled.hpp` 69-94), line breaks (98-105), format
manipulators (109-113, without the mutex), titles (116-127, where the flag is read before the mutex
is locked) and `setLogSuppressed` (`Log.hpp` 109-112). -/
def progOf (con : Con) (lit : List Char) : Op → Prog
  | .val v => lockGuard (valSteps con lit v) .done
  | .endl => lockGuard (fun k => coutPut ['\n'] (logPut ['\n'] k)) .done
  | .manip t => coutPut t .done
  | .title v =>
    .act id (fun s => if s.suppressed then .done else lockGuard (setTitleSteps con lit v) .done)
  | .suppress b => .act (fun s => { s with suppressed := b }) (fun _ => .done)

/-- `lo() << x` for an object `x` whose stringifier itself writes `lo() << w` (besides the text of
`v`) — `LogImplEnabled.hpp` 69-94 again: the stringifier is called at line 88 with the mutex
locked. -/
def loggingVal (con : Con) (lit : List Char) (v w : Val) : Prog :=
  lockGuard (fun k => titleSteps con (coutDo (resetFmt con)
    (lockGuard (valSteps con lit w) (coutDo (stringify con true lit v) (coutDo (resetFmt con)
      (lockGuard (valSteps con lit w) (logDo (stringify con false lit v) k))))))) .done

/-- A thread: the rest of the call it is in, and the calls to come. -/
structure Thread where
  cur : Prog
  todo : List Prog

/-- A moment of the program: the shared state, the owner of the mutex, the threads. -/
structure Sys where
  sh : LogSt
  owner : Option Nat
  ths : List Thread

/-- The next step of thread `i`, if it can take one: a thread waits as long as the mutex it wants to
lock is locked. -/
def stepThread (i : Nat) (s : Sys) : Option Sys :=
  match s.ths[i]? with
  | none => none
  | some ⟨.done, []⟩ => none
  | some ⟨.done, p :: ps⟩ => some ⟨s.sh, s.owner, s.ths.set i ⟨p, ps⟩⟩
  | some ⟨.act u k, ps⟩ => some ⟨u s.sh, s.owner, s.ths.set i ⟨k s.sh, ps⟩⟩
  | some ⟨.acquire k, ps⟩ =>
    match s.owner with
    | none => some ⟨s.sh, some i, s.ths.set i ⟨k, ps⟩⟩
    | some _ => none
  | some ⟨.release k, ps⟩ => some ⟨s.sh, none, s.ths.set i ⟨k, ps⟩⟩

/-- A schedule: which thread takes the first step, the second, and so on. -/
def runs : List Nat → Sys → Option Sys
  | [], s => some s
  | i :: is, s =>
    match stepThread i s with
    | none => none
    | some s' => runs is s'

/-- The start of a program of several threads: what each of them is going to call. -/
def start (s : LogSt) (ps : List (List Prog)) : Sys := ⟨s, none, ps.map (fun p => ⟨.done, p⟩)⟩

/-- The start of a program whose threads only log. -/
def startLog (con : Con) (lit : List Char) (s : LogSt) (ops : List (List Op)) : Sys :=
  start s (ops.map (List.map (progOf con lit)))

/-- All threads have ended. -/
def Sys.finished (s : Sys) : Prop := ∀ t ∈ s.ths, t.cur = .done ∧ t.todo = []

end Verif.Log.Threads
