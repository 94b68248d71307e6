import Verif.Basic
/-!
# Threads that run at the same time

Memory is sequentially consistent: the actions of the threads happen one after the other, in any order that keeps the order of each thread.
-/

namespace Lha.Spec

/-- An indivisible action: it reads and changes the memory shared by all threads (`σ`) and that of the thread (`τ`), or fails. -/
abbrev Act (σ τ : Type) := σ → τ → G (σ × τ)

/-- A thread: the actions it has not done yet, its own memory. -/
structure Thread (σ τ : Type) where
  todo : List (Act σ τ)
  own : τ

/-- One of the threads does its next action. -/
inductive Turn {σ τ : Type} : σ × List (Thread σ τ) → σ × List (Thread σ τ) → Prop
  | act (s s' : σ) (before after : List (Thread σ τ)) (a : Act σ τ) (todo : List (Act σ τ)) (own own' : τ) (h : a s own = .ok (s', own')) :
    Turn (s, before ++ ⟨a :: todo, own⟩ :: after) (s', before ++ ⟨todo, own'⟩ :: after)

/-- What can be reached, in whatever order the threads are run. -/
inductive Runs {σ τ : Type} : σ × List (Thread σ τ) → σ × List (Thread σ τ) → Prop
  | refl (c : σ × List (Thread σ τ)) : Runs c c
  | step {c d e : σ × List (Thread σ τ)} (h : Runs c d) (h' : Turn d e) : Runs c e

end Lha.Spec
