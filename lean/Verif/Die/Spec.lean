import Verif.Die.Model
import Verif.Utf.Spec

/-! What a death should show. -/
namespace ELC.Die.Spec

/-- Characters of a text. -/
def chars (t : String) : List Nat := t.toList.map Char.toNat

/-- Text on the console. -/
def text (t : List Nat) : List Item := t.map .unit

/-- A text in red. -/
def Red (e e' : Err) (t : List Nat) : Prop := e'.shown = e.shown ++ (Item.red :: text t ++ [Item.plain])

/-- The report of a reason. -/
def report (reason : List Nat) : List Nat := chars "\nelc died because:\n" ++ reason ++ chars "\n"

/-- A view is inside memory that can be read. -/
def Valid (v : View) : Prop := v.size ≤ v.mem.length

/-- The characters of a view. -/
def content (v : View) : List Nat := v.mem.take v.size

/-- A text up to its first zero. -/
def upToZero (t : List Nat) : List Nat := t.takeWhile (· ≠ 0)

/-- A text up to the first that is no code point of Unicode. -/
def upToBad (t : List Nat) : List Nat := t.takeWhile (· < 0x110000)

/-- The bytes of a text in a locale. -/
def bytes (enc : Nat → Option (List Nat)) (t : List Nat) : List Nat := t.flatMap fun c => (enc c).getD []

end ELC.Die.Spec
