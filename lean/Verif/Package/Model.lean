/-!
Which packages a program needs: parts/header_file/draft/package_manager/defs.hpp (the lines below).

What the system says about packages (can it be found, is it installed) is a parameter.  The end of `get_relay_list` is random
(153), so that the functions give the list of all outcomes that are possible.

Simplification: names are numbers.
-/
namespace ELC.Package

/-- 12-17 `package_info_t`. -/
structure Pkg where
  name : Nat
  major : Nat
  minor : Nat
deriving DecidableEq, Repr

/-- 22-24 `same_package_as`. -/
def Pkg.same (p q : Pkg) : Bool := p.name == q.name && p.major == q.major

/-- 26-27: what the system says. -/
structure Env where
  found : Pkg → Bool
  installed : Pkg → Bool

/-- 59-103: what a package needs. -/
inductive Relay where
  /-- 85-95 `signal_package_relay_info_t` -/
  | single (p : Pkg)
  /-- 72-84 `common_package_relay_info_t` -/
  | common (l : List Relay)
  /-- 96-157 `pick_one_package_relay_info_t` -/
  | pick (l : List Relay)

/-- A list, one of the two exceptions (`package_not_found`, 116 `runtime_error`), or undefined. -/
inductive Outcome where
  | ok (l : List Pkg)
  | notFound
  | noPackage
  | undef
deriving DecidableEq, Repr

/-- 40-45 `already_in_list`. -/
def inList (l : List Pkg) (p : Pkg) : Bool := l.any (·.same p)

/-- 46-52 `add_package`. -/
def addPackage (env : Env) (l : List Pkg) (p : Pkg) : Outcome :=
  if inList l p then .ok l else if env.found p then .ok (l ++ [p]) else .notFound

/-- 53-56 `add_list`. -/
def addList (env : Env) (l : List Pkg) : List Pkg → Outcome
  | [] => .ok l
  | p :: ps => match addPackage env l p with
    | .ok l' => addList env l' ps
    | o => o

/-- 119-122: the size of the shortest list. -/
def minSize : List (List Pkg) → Nat
  | [] => 0
  | l :: ls => ls.foldl (fun m l => if l.length < m then l.length else m) l.length

/-- 123-127: the shortest lists. -/
def shortest (ls : List (List Pkg)) : List (List Pkg) := ls.filter fun l => l.length = minSize ls

/-- 136-139: the number of installed packages. -/
def installedCount (env : Env) (l : List Pkg) : Nat := l.countP env.installed

/-- 133-143: the greatest of the counts. -/
def maxCount (counts : List Nat) : Nat := counts.foldl (fun m c => if c > m then c else m) 0

/-- 144-148: the counts are looked up by the position in the list from which others were erased already. -/
def keepInstalled (counts : List Nat) (max : Nat) (i : Nat) : List (List Pkg) → List (List Pkg)
  | [] => []
  | l :: ls => if counts.getD i 0 ≠ max then keepInstalled counts max i ls else l :: keepInstalled counts max (i + 1) ls

/-- 117-149: the lists from which one is drawn. -/
def candidates (env : Env) (ls : List (List Pkg)) : List (List Pkg) :=
  let s := shortest ls
  if s.length = 1 then s
  else
    let counts := s.map (installedCount env)
    keepInstalled counts (maxCount counts) 0 s

mutual
/-- `get_relay_list` of all three. -/
def resolve (env : Env) : Relay → List Pkg → List Outcome
  | .single p, l => [addPackage env l p]
  | .common rs, l => resolveAll env rs l
  | .pick rs, l => (alternatives env rs l).flatMap fun
    | .error o => [o]
    | .ok ls =>
      if ls = [] then [.noPackage]
      else match candidates env ls with
        -- 153: the remainder of a division by zero
        | [] => [.undef]
        | c :: cs => (c :: cs).map (addList env l)
/-- 78-83: one after the other. -/
def resolveAll (env : Env) : List Relay → List Pkg → List Outcome
  | [], l => [.ok l]
  | r :: rs, l => (resolve env r l).flatMap fun
    | .ok l' => resolveAll env rs l'
    | o => [o]
/-- 104-114: the lists of the alternatives; `package_not_found` leaves one out, everything else passes. -/
def alternatives (env : Env) : List Relay → List Pkg → List (Except Outcome (List (List Pkg)))
  | [], _ => [.ok []]
  | r :: rs, l => (resolve env r l).flatMap fun
    | .ok l' => (alternatives env rs l).map fun
      | .ok ls => .ok (l' :: ls)
      | .error o => .error o
    | .notFound => alternatives env rs l
    | o => [.error o]
end

/-- 159-164 `get_package_load_list`: `info` is what `get_package_relay_info` gives, null for a package it does not know. -/
def loadList (env : Env) (info : Option Relay) : List Outcome :=
  match info with
  | none => [.undef]
  | some r => resolve env r []

end ELC.Package
