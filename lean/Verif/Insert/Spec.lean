/-! What it means to write a text in a field. -/
namespace ELC.Insert.Spec

variable {A : Type}

/-- A text filled up to a width, behind it if it is aligned to the left, before it otherwise. -/
def field (width : Int) (left : Bool) (fill : A) (text : List A) : List A :=
  let missing := List.replicate (width - text.length).toNat fill
  if left then text ++ missing else missing ++ text

/-- A text with `new` written over it from the position `pos` on. -/
def over (text : List A) (pos : Nat) (new : List A) : List A := text.take pos ++ new ++ text.drop (pos + new.length)

end ELC.Insert.Spec
