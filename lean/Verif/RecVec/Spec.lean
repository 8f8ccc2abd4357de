import Verif.RecVec.Model
import Verif.Recycler.Spec

/-!
# What recycling vectors should do

A vector is a sequence of objects it owns, or null. Objects are numbered in the order of the calls that make them. Nothing is
required of the order in which vectors are destroyed.
-/

namespace Verif.RecVec

open Verif.Recycler (Ty Kind)

structure VAbs where
  vecs : List (Option (Kind × List Entry))
  made : Nat
  deriving Repr, DecidableEq

def VAbs.init : VAbs := ⟨[], 0⟩

/-- Legal use: vectors that exist, positions inside, a monomorphic vector makes `TBase` only, one with a fixed list of types only
those. -/
def VAbs.step (base : Ty) (a : VAbs) : VOp → Option VAbs
  | .newMono => some { a with vecs := a.vecs ++ [some (.mono, [])] }
  | .newPoly => some { a with vecs := a.vecs ++ [some (.poly, [])] }
  | .newFixed sizes => some { a with vecs := a.vecs ++ [some (.fixed sizes, [])] }
  | .create v t =>
    match a.vecs[v]? with
    | some (some (k, es)) =>
      if k.makes base t then some ⟨a.vecs.set v (some (k, es ++ [some (a.made, t)])), a.made + 1⟩ else none
    | _ => none
  | .createAt v i t =>
    match a.vecs[v]? with
    | some (some (k, es)) =>
      if k.makes base t ∧ i ≤ es.length then
        some ⟨a.vecs.set v (some (k, es.take i ++ some (a.made, t) :: es.drop i)), a.made + 1⟩
      else none
    | _ => none
  | .createThrow v t =>
    match a.vecs[v]? with
    | some (some (k, _)) => if k.makes base t then some { a with made := a.made + 1 } else none
    | _ => none
  | .reset v i =>
    match a.vecs[v]? with
    | some (some (k, es)) => if i < es.length then some { a with vecs := a.vecs.set v (some (k, es.set i none)) } else none
    | _ => none
  | .swap v i j =>
    match a.vecs[v]? with
    | some (some (k, es)) =>
      match es[i]?, es[j]? with
      | some x, some y => some { a with vecs := a.vecs.set v (some (k, (es.set i y).set j x)) }
      | _, _ => none
    | _ => none
  | .clear v =>
    match a.vecs[v]? with
    | some (some (k, _)) => some { a with vecs := a.vecs.set v (some (k, [])) }
    | _ => none
  | .move v =>
    match a.vecs[v]? with
    | some (some (k, es)) => some { a with vecs := (a.vecs.set v (some (k, []))) ++ [some (k, es)] }
    | _ => none
  | .destroy v =>
    match a.vecs[v]? with
    | some (some _) => some { a with vecs := a.vecs.set v none }
    | _ => none

def VAbs.run (base : Ty) (a : VAbs) : List VOp → Option VAbs
  | [] => some a
  | o :: os => (a.step base o).bind (·.run base os)

/-- The history is legal and leads to `a`. -/
def VLegal (base : Ty) (os : List VOp) (a : VAbs) : Prop := VAbs.init.run base os = some a

/-- The operation does not move a vector with objects that is monomorphic or has a fixed list of types. -/
def VAbs.moveOk (a : VAbs) : VOp → Bool
  | .move v =>
    match a.vecs[v]? with
    | some (some (k, es)) => !k.inPlace || es.all Option.isNone
    | _ => true
  | _ => true

/-- In this history vectors that are monomorphic or have a fixed list of types are moved only while they own no object. -/
def VAbs.movesOk (base : Ty) (a : VAbs) : List VOp → Bool
  | [] => true
  | o :: os => a.moveOk o &&
    match a.step base o with
    | some a' => a'.movesOk base os
    | none => true

/-- The history makes an object of type `t`, or tries to. -/
def VMakes (os : List VOp) (t : Ty) : Prop :=
  ∃ v, VOp.create v t ∈ os ∨ (∃ i, VOp.createAt v i t ∈ os) ∨ VOp.createThrow v t ∈ os

end Verif.RecVec
