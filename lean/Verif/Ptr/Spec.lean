import Verif.Ptr.Model
/-! What a user of counted pointers relies on, in terms of the pointers that exist. -/
namespace ELC.Ptr.Spec

open ELC.Ptr

/-- The pointers that exist: the variables, and the members of the objects whose storage has not been given back. -/
def pointers (s : State) : List Ref :=
  s.vars.filterMap id ++ (s.heap.objs.filter fun o => o.phase ≠ .freed).flatMap Obj.fields

/-- A strong, or a weak, pointer to object `i` exists. -/
def Owned (s : State) (i : Nat) : Prop := (⟨false, i⟩ : Ref) ∈ pointers s
def Watched (s : State) (i : Nat) : Prop := (⟨true, i⟩ : Ref) ∈ pointers s

instance (s : State) (i : Nat) : Decidable (Owned s i) := inferInstanceAs (Decidable (_ ∈ _))
instance (s : State) (i : Nat) : Decidable (Watched s i) := inferInstanceAs (Decidable (_ ∈ _))

/-- Object `i` exists, and is in use; its storage is still there. -/
def Alive (s : State) (i : Nat) : Prop := ∃ o, s.heap.objs[i]? = some o ∧ o.phase = .alive
def Stored (s : State) (i : Nat) : Prop := ∃ o, s.heap.objs[i]? = some o ∧ o.phase ≠ .freed

/-- The life of every object made (other than the null object) is as it should be: it is in use exactly while a strong pointer
to it exists, stored exactly while any pointer to it exists, it was ended exactly once if it is not in use, and its destructor
ran exactly once if it is not stored. -/
structure Sound (s : State) : Prop where
  alive : ∀ i, 0 < i → i < s.heap.objs.length → (Alive s i ↔ Owned s i)
  stored : ∀ i, 0 < i → i < s.heap.objs.length → (Stored s i ↔ Owned s i ∨ Watched s i)
  ended : ∀ i, i < s.heap.objs.length → s.heap.ended.count i = if Owned s i ∨ i = 0 then 0 else 1
  destroyed : ∀ i, i < s.heap.objs.length → s.heap.destroyed.count i = if Owned s i ∨ Watched s i ∨ i = 0 then 0 else 1
  null : Alive s 0
  valid : ∀ r ∈ pointers s, r.to < s.heap.objs.length

/-- The variables an operation names exist, and are of fitting kinds. -/
def Valid (s : State) : Op → Prop
  | .make members => ∀ x ∈ members, ∃ r, s.var x = some r
  | .copy _ x => ∃ r, s.var x = some r
  | .assign x y => (∃ r, s.var x = some r) ∧ ∃ r, s.var y = some r
  | .swap x y => ∃ a b, s.var x = some a ∧ s.var y = some b ∧ a.weak = b.weak
  | .reset x => ∃ r, s.var x = some r
  | .drop x => ∃ r, s.var x = some r
  | .setField x m y => (∃ a o f, s.var x = some a ∧ s.heap.objs[a.to]? = some o ∧ o.fields[m]? = some f) ∧ ∃ r, s.var y = some r
  | .addField x y => (∃ a, s.var x = some a) ∧ ∃ r, s.var y = some r

/-- No strong pointer is assigned from a weak pointer to an object that is no longer in use. -/
def NoRevival (s : State) : Op → Prop
  | .assign x y => ∀ a b, s.var x = some a → s.var y = some b → a.weak = false → Alive s b.to
  | .setField x m y => ∀ a o f b, s.var x = some a → s.heap.objs[a.to]? = some o → o.fields[m]? = some f → s.var y = some b →
      f.weak = false → Alive s b.to
  | _ => True

/-- No object gets a weak pointer as a member. -/
def NoWeakMember (s : State) : Op → Prop
  | .make members => ∀ x ∈ members, ∀ r, s.var x = some r → r.weak = false
  | .addField _ y => ∀ r, s.var y = some r → r.weak = false
  | _ => True

/-- Every operation of a history has the property, in the state in which it is reached. -/
def Along (P : State → Op → Prop) : State → List Op → Prop
  | _, [] => True
  | s, op :: ops => P s op ∧ ∀ s', exec s op = some s' → Along P s' ops

end ELC.Ptr.Spec
