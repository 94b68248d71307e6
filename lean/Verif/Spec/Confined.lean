import Verif.Model.Extract
/-!
# What extraction may change, with any options
-/

namespace Lha.Spec

/-- A name of the current directory that leads elsewhere: a symbolic link, or a device, pipe or socket. -/
def Bridge (x : Option Node) : Prop := (∃ t d, x = some (.link t d)) ∨ x = some .other

/-- The state of the system before and after an extraction. -/
structure Confined (before after : Sys) : Prop where
  /-- Lines are read from the terminal in order. -/
  read : ∃ used, before.answers = used ++ after.answers
  /-- What changes are plain names: a file that is new or was a file before, or the attributes of a directory. -/
  node : ∀ n, after.node n = before.node n ∨ 0x2f ∉ n ∧
    ((∃ c m, after.node n = some (.file c m)) ∧ (before.node n = none ∨ ∃ c m, before.node n = some (.file c m)) ∨
      ∃ m m', before.node n = some (.dir m) ∧ after.node n = some (.dir m'))
  /-- What is changed elsewhere is reached through a name that led there before. -/
  outside : ∃ x, after.outside = before.outside ++ x ∧ ∀ y ∈ x, ∃ n, 0x2f ∉ n ∧ Bridge (before.node n) ∧ (y = .attr n ∨ ∃ c, y = .write n c)

end Lha.Spec
