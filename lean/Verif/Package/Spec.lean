import Verif.Package.Model
/-! What a list of packages has to contain. -/
namespace ELC.Package.Spec
open ELC.Package (Pkg Relay)

/-- The needs are met if the packages `P` holds of are there. -/
inductive Sat (P : Pkg → Prop) : Relay → Prop
  | single {p : Pkg} : P p → Sat P (.single p)
  | common {rs : List Relay} : (∀ r ∈ rs, Sat P r) → Sat P (.common rs)
  | pick {rs : List Relay} {r : Relay} : r ∈ rs → Sat P r → Sat P (.pick rs)

/-- A package is mentioned. -/
inductive Mentions (p : Pkg) : Relay → Prop
  | single : Mentions p (.single p)
  | common {rs : List Relay} {r : Relay} : r ∈ rs → Mentions p r → Mentions p (.common rs)
  | pick {rs : List Relay} {r : Relay} : r ∈ rs → Mentions p r → Mentions p (.pick rs)

/-- The list has the package in a version that can replace the one asked for: 19-21 `is_compatible`. -/
def Has (l : List Pkg) (p : Pkg) : Prop := ∃ q ∈ l, q.name = p.name ∧ q.major = p.major ∧ p.minor ≤ q.minor

/-- The list has the package, in whatever minor version. -/
def HasMajor (l : List Pkg) (p : Pkg) : Prop := ∃ q ∈ l, q.name = p.name ∧ q.major = p.major

/-- No choice. -/
inductive Plain : Relay → Prop
  | single {p : Pkg} : Plain (.single p)
  | common {rs : List Relay} : (∀ r ∈ rs, Plain r) → Plain (.common rs)

/-- No choice inside another one. -/
inductive Flat : Relay → Prop
  | single {p : Pkg} : Flat (.single p)
  | common {rs : List Relay} : (∀ r ∈ rs, Flat r) → Flat (.common rs)
  | pick {rs : List Relay} : (∀ r ∈ rs, Plain r) → Flat (.pick rs)

mutual
/-- The packages mentioned, in their order. -/
def leaves : Relay → List Pkg
  | .single p => [p]
  | .common rs => leavesAll rs
  | .pick rs => leavesAll rs
def leavesAll : List Relay → List Pkg
  | [] => []
  | r :: rs => leaves r ++ leavesAll rs
end

/-- Those of `ps` that are not there with the same name and major version, in `l` or before: the first mention of each. -/
def firsts (l : List Pkg) : List Pkg → List Pkg
  | [] => []
  | p :: ps => if l.any (fun q => q.name == p.name && q.major == p.major) then firsts l ps else p :: firsts (l ++ [p]) ps

end ELC.Package.Spec
