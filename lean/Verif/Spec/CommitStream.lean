import Verif.Model.Conc
/-!
# What the consumer of `CodeByCommit` sees

Independent of the program: `M` is the type of the commits, `R` the type of the records.
-/
namespace Ripsrc.Spec

/-- An observation of the consumer: a commit (the `i`-th, with its channel `Blames`), a record received from the channel of the `i`-th commit, the channel of the
`i`-th commit found closed, the channel of the commits found closed. -/
inductive Seen (M R : Type) where
  | commit (c : M) (i : Nat)
  | record (i : Nat) (r : R)
  | blamesClosed (i : Nat)
  | resClosed

/-- A channel that the consumer may receive from: the channel of the commits, or the channel `Blames` of the `i`-th commit. -/
inductive Want where
  | commit
  | blames (i : Nat)
deriving DecidableEq, Repr

variable {M R : Type}

/-- Something was received (a channel was not found closed). -/
def Seen.isValue : Seen M R → Bool
  | .commit _ _ | .record _ _ => true
  | _ => false

/-- The channel that an observation is made on. -/
def Seen.on : Seen M R → Want
  | .commit _ _ | .resClosed => .commit
  | .record i _ | .blamesClosed i => .blames i

/-- What was received, in order. -/
def received (h : List (Seen M R)) : List (Seen M R) := h.filter Seen.isValue

/-- What is to be received from commit number `i` on: each commit followed by its records. -/
def streamFrom : Nat → List (M × List R) → List (Seen M R)
  | _, [] => []
  | i, (c, rs) :: out => .commit c i :: rs.map (Seen.record i) ++ streamFrom (i + 1) out

/-- What is to be received in all. -/
def stream (out : List (M × List R)) : List (Seen M R) := streamFrom 0 out

/-- A history of the consumer is right for `out`: what was received is a beginning of the stream; a channel `Blames` is found closed only after all records of that
commit (and all earlier ones), the channel of the commits only after everything. -/
structure RightHistory (out : List (M × List R)) (h : List (Seen M R)) : Prop where
  received : received h <+: stream out
  blames : ∀ i, Seen.blamesClosed i ∈ h → i < out.length ∧ stream (out.take (i + 1)) <+: Spec.received h
  res : Seen.resClosed ∈ h → Spec.received h = stream out

/-- A consumer, given by the channels that it is ready to receive from after a history (several: it has several goroutines, or uses `select`), that drains: it reads
the channel of every commit that it received until that is closed, it receives commits until there are no more, at the latest when all commits received so
far are read to the end; and it does not read a channel that it has found closed. -/
structure Drains (ready : List (Seen M R) → Want → Prop) : Prop where
  blames : ∀ h c i, Seen.commit c i ∈ h → Seen.blamesClosed i ∉ h → ready h (.blames i)
  commits : ∀ h, (∀ c i, Seen.commit c i ∈ h → Seen.blamesClosed i ∈ h) → Seen.resClosed ∉ h → ready h .commit
  once : ∀ h, ready h .commit → Seen.resClosed ∉ h
  onceBlames : ∀ h i, ready h (.blames i) → (∃ c, Seen.commit c i ∈ h) ∧ Seen.blamesClosed i ∉ h

end Ripsrc.Spec
