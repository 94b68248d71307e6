/-!
# What a process that dies leaves on disk

A disk maps path names to the contents of files.  A process issues a sequence of operations; it may die between two of them or in the middle
of one.  Creating and writing a file may leave that file (and no other) in any state; `rename` and `remove` happen or do not happen (POSIX).
Operations the process has finished are on disk (no loss of power).
-/

namespace Lha.Spec

abbrev Disk := List Nat → Option (List Nat)

/-- Set one file. -/
def Disk.set (d : Disk) (n : List Nat) (c : Option (List Nat)) : Disk := fun m => if m = n then c else d m

inductive DiskOp
  /-- make an empty file -/
  | create (n : List Nat)
  /-- append bytes -/
  | write (n bytes : List Nat)
  /-- write bytes at the beginning of the file -/
  | over (n bytes : List Nat)
  /-- something is being appended to the file; what, is only known if it ends well (then a `write` follows) -/
  | dirty (n : List Nat)
  /-- refused if the new name is empty or contains NUL -/
  | rename (a b : List Nat)
  | remove (n : List Nat)

/-- What an operation does. -/
def DiskOp.apply : DiskOp → Disk → Disk
  | .create n, d => d.set n (some [])
  | .write n bs, d => match d n with
    | some c => d.set n (some (c ++ bs))
    | none => d
  | .over n bs, d => match d n with
    | some c => d.set n (some (bs ++ c.drop bs.length))
    | none => d
  | .dirty _, d => d
  | .rename a b, d => match d a with
    | some c => if b = [] ∨ 0 ∈ b then d else (d.set a none).set b (some c)
    | none => d
  | .remove n, d => d.set n none

/-- What an operation may leave if the process dies during it. -/
def DiskOp.Torn : DiskOp → Disk → Disk → Prop
  | .create n, d, d' => ∀ m, m ≠ n → d' m = d m
  | .write n _, d, d' => ∀ m, m ≠ n → d' m = d m
  | .over n _, d, d' => ∀ m, m ≠ n → d' m = d m
  | .dirty n, d, d' => ∀ m, m ≠ n → d' m = d m
  | .rename a b, d, d' => d' = d ∨ d' = DiskOp.apply (.rename a b) d
  | .remove n, d, d' => d' = d ∨ d' = DiskOp.apply (.remove n) d

def runOps (ops : List DiskOp) (d : Disk) : Disk := ops.foldl (fun d o => o.apply d) d

/-- `d'` is a state the disk may be in when the process dies somewhere in the sequence. -/
def Crash (ops : List DiskOp) (d d' : Disk) : Prop :=
  ∃ pre post, ops = pre ++ post ∧ (d' = runOps pre d ∨ ∃ o post', post = o :: post' ∧ o.Torn (runOps pre d) d')

end Lha.Spec
