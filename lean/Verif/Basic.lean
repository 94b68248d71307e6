/-!
# Fault monad and bounds-checked arrays

Shared vocabulary of the model.  Nothing here corresponds to a particular line of `/repo`;
it is the Lean rendering of Go's run-time behaviour for indexing and looping.
-/

namespace Lha

/-- What can go wrong while a Go function runs: a run-time panic (index or slice bounds out of
range, nil dereference, division by zero) or a loop that never ends. -/
inductive Fault
  | panic
  | diverge
  deriving DecidableEq, Repr

/-- Result of running Go code: a value or a fault. -/
abbrev G (α : Type) := Except Fault α

def panic {α : Type} : G α := .error .panic
def diverge {α : Type} : G α := .error .diverge

instance {α : Type} [DecidableEq α] : DecidableEq (G α) := fun a b =>
  match a, b with
  | .ok x, .ok y => if h : x = y then isTrue (by rw [h]) else isFalse (by intro e; cases e; exact h rfl)
  | .error x, .error y =>
    if h : x = y then isTrue (by rw [h]) else isFalse (by intro e; cases e; exact h rfl)
  | .ok _, .error _ => isFalse (by intro e; cases e)
  | .error _, .ok _ => isFalse (by intro e; cases e)

/-- Persistent store of numbers indexed by `Nat`: index 0 is the root, odd indices are in the left
subtree, even ones in the right subtree.  `leaf d` holds `d` everywhere. -/
inductive Tr
  | leaf (d : Nat)
  | node (v : Nat) (l r : Tr)
  deriving Repr

namespace Tr

def get : Tr → Nat → Nat
  | leaf d, _ => d
  | node v l r, i => if i = 0 then v else if i % 2 = 1 then l.get (i / 2) else r.get (i / 2 - 1)

def val : Tr → Nat
  | leaf d => d
  | node v _ _ => v

def lft : Tr → Tr
  | leaf d => leaf d
  | node _ l _ => l

def rgt : Tr → Tr
  | leaf d => leaf d
  | node _ _ r => r

/-- Store `v` at index `i`; the first argument bounds the depth. -/
def set : Nat → Tr → Nat → Nat → Tr
  | 0, t, _, v => node v t.lft t.rgt
  | f + 1, t, i, v =>
    if i = 0 then node v t.lft t.rgt
    else if i % 2 = 1 then node t.val (set f t.lft (i / 2) v) t.rgt
    else node t.val t.lft (set f t.rgt (i / 2 - 1) v)

/-- Apply `f` to every stored value. -/
def map (f : Nat → Nat) : Tr → Tr
  | leaf d => leaf (f d)
  | node v l r => node (f v) (map f l) (map f r)

@[simp] theorem val_node (v : Nat) (l r : Tr) : (node v l r).val = v := rfl
@[simp] theorem lft_node (v : Nat) (l r : Tr) : (node v l r).lft = l := rfl
@[simp] theorem rgt_node (v : Nat) (l r : Tr) : (node v l r).rgt = r := rfl

theorem get_eq (t : Tr) (i : Nat) :
    t.get i = if i = 0 then t.val else if i % 2 = 1 then t.lft.get (i / 2) else t.rgt.get (i / 2 - 1) := by
  cases t with
  | leaf d => simp [get, val, lft, rgt]
  | node v l r => simp [get, val, lft, rgt]

theorem get_set (f : Nat) (t : Tr) (i v j : Nat) (h : i < 2 ^ f) :
    (t.set f i v).get j = if j = i then v else t.get j := by
  induction f generalizing t i j with
  | zero =>
    have hi : i = 0 := by simpa using h
    subst hi
    rw [get_eq (t.set 0 0 v), get_eq t]
    by_cases hj : j = 0
    · simp [hj, set]
    · simp [hj, set]
  | succ f ih =>
    rw [get_eq (t.set (f + 1) i v), get_eq t]
    have h2 : 2 ^ (f + 1) = 2 * 2 ^ f := by rw [Nat.pow_succ]; omega
    by_cases hi : i = 0
    · subst hi
      by_cases hj : j = 0
      · simp [hj, set]
      · simp [hj, set]
    · by_cases hi2 : i % 2 = 1
      · have e : t.set (f + 1) i v = node t.val (set f t.lft (i / 2) v) t.rgt := by
          simp [set, hi, hi2]
        rw [e]
        simp only [val_node, lft_node, rgt_node]
        rw [ih t.lft (i / 2) (j / 2) (by omega)]
        by_cases hj : j = 0
        · have : ¬ (0 = i) := fun h => hi h.symm
          simp [hj, this]
        · by_cases hj2 : j % 2 = 1
          · by_cases hji : j = i
            · simp [hi2, hji, hi]
            · have : ¬ (j / 2 = i / 2) := by omega
              simp [hj, hj2, hji, this]
          · have : ¬ (j = i) := by omega
            simp [hj, hj2, this]
      · have e : t.set (f + 1) i v = node t.val t.lft (set f t.rgt (i / 2 - 1) v) := by
          simp [set, hi, hi2]
        rw [e]
        simp only [val_node, lft_node, rgt_node]
        rw [ih t.rgt (i / 2 - 1) (j / 2 - 1) (by omega)]
        by_cases hj : j = 0
        · have : ¬ (0 = i) := fun h => hi h.symm
          simp [hj, this]
        · by_cases hj2 : j % 2 = 1
          · have : ¬ (j = i) := by omega
            simp [hj, hj2, this]
          · by_cases hji : j = i
            · simp [hi2, hji, hi]
            · have : ¬ (j / 2 - 1 = i / 2 - 1) := by omega
              simp [hj, hj2, hji, this]

theorem get_map (f : Nat → Nat) (t : Tr) (i : Nat) : (t.map f).get i = f (t.get i) := by
  induction t generalizing i with
  | leaf d => simp [map, get]
  | node v l r ihl ihr =>
    simp only [map, get]
    split
    · rfl
    · split
      · exact ihl _
      · exact ihr _

end Tr

/-- A Go slice of numbers with its length. -/
structure Arr where
  size : Nat
  t : Tr
  deriving Repr

namespace Arr

/-- `make([]T, n)` filled with `d`. -/
def mk' (n d : Nat) : Arr := ⟨n, .leaf d⟩

def get (a : Arr) (i : Nat) : Nat := a.t.get i

def upd (a : Arr) (i v : Nat) : Arr := ⟨a.size, a.t.set (Nat.log2 i + 1) i v⟩

def map (a : Arr) (f : Nat → Nat) : Arr := ⟨a.size, a.t.map f⟩

@[simp] theorem size_upd (a : Arr) (i v : Nat) : (a.upd i v).size = a.size := rfl
@[simp] theorem size_map (a : Arr) (f : Nat → Nat) : (a.map f).size = a.size := rfl
@[simp] theorem size_mk' (n d : Nat) : (mk' n d).size = n := rfl
@[simp] theorem get_mk' (n d i : Nat) : (mk' n d).get i = d := by simp [mk', get, Tr.get]

theorem get_upd (a : Arr) (i v j : Nat) : (a.upd i v).get j = if j = i then v else a.get j := by
  unfold upd get
  apply Tr.get_set
  exact Nat.lt_log2_self

@[simp] theorem get_upd_same (a : Arr) (i v : Nat) : (a.upd i v).get i = v := by
  simp [get_upd]

theorem get_upd_ne (a : Arr) (i v j : Nat) (h : j ≠ i) : (a.upd i v).get j = a.get j := by
  simp [get_upd, h]

@[simp] theorem get_map (a : Arr) (f : Nat → Nat) (i : Nat) : (a.map f).get i = f (a.get i) := by
  unfold map get; exact Tr.get_map _ _ _

end Arr

/-- Go's `a[i]` as an rvalue. -/
def rd (a : Arr) (i : Nat) : G Nat := if i < a.size then .ok (a.get i) else .error .panic

/-- Go's `a[i] = v`. -/
def wr (a : Arr) (i v : Nat) : G Arr := if i < a.size then .ok (a.upd i v) else .error .panic

theorem rd_ok {a : Arr} {i : Nat} (h : i < a.size) : rd a i = .ok (a.get i) := by simp [rd, h]
theorem wr_ok {a : Arr} {i v : Nat} (h : i < a.size) : wr a i v = .ok (a.upd i v) := by simp [wr, h]

theorem rd_panic {a : Arr} {i : Nat} (h : a.size ≤ i) : rd a i = .error .panic := by
  simp [rd, Nat.not_lt.mpr h]
theorem wr_panic {a : Arr} {i v : Nat} (h : a.size ≤ i) : wr a i v = .error .panic := by
  simp [wr, Nat.not_lt.mpr h]

@[simp] theorem ok_bind {α β : Type} (x : α) (f : α → G β) : (Except.ok x >>= f : G β) = f x := rfl
@[simp] theorem error_bind {α β : Type} (e : Fault) (f : α → G β) :
    (Except.error e >>= f : G β) = .error e := rfl
@[simp] theorem pure_ok {α : Type} (x : α) : (pure x : G α) = .ok x := rfl

/-- `for i = s; i < s + n; i++ { a[i] = v }`. -/
def fillRange (v : Nat) : Nat → Nat → Arr → G Arr
  | 0, _, a => .ok a
  | n + 1, s, a => do
    let a ← wr a s v
    fillRange v n (s + 1) a

theorem fillRange_ok (v : Nat) (n s : Nat) (a : Arr) (h : s + n ≤ a.size) :
    ∃ a', fillRange v n s a = .ok a' ∧ a'.size = a.size ∧
      ∀ j, a'.get j = if s ≤ j ∧ j < s + n then v else a.get j := by
  induction n generalizing s a with
  | zero => exact ⟨a, rfl, rfl, fun j => by rw [if_neg]; omega⟩
  | succ n ih =>
    obtain ⟨a', h1, h2, h3⟩ := ih (s + 1) (a.upd s v) (by simp; omega)
    refine ⟨a', ?_, by simpa using h2, ?_⟩
    · simp only [fillRange]
      rw [wr_ok (by omega)]
      exact h1
    · intro j
      rw [h3 j, Arr.get_upd]
      by_cases hj : j = s
      · subst hj
        rw [if_neg (by omega), if_pos rfl, if_pos (by omega)]
      · rw [if_neg hj]
        by_cases hc : s + 1 ≤ j ∧ j < s + 1 + n
        · rw [if_pos hc, if_pos (by omega)]
        · rw [if_neg hc, if_neg (by omega)]

/-- The bytes `a[s], a[s+1], …` (`n` of them), without bounds check. -/
def Arr.slice (a : Arr) : Nat → Nat → List Nat
  | _, 0 => []
  | s, n + 1 => a.get s :: a.slice (s + 1) n

/-- All elements are bytes. -/
def IsBytes (l : List Nat) : Prop := ∀ x ∈ l, x < 256

end Lha
