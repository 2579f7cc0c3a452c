import Verif.Package.Lemmas
import Mathlib.Data.List.TakeWhile
/-! Properties of the lists of packages. -/
namespace ELC.Package
open Spec

/-! ### C174: the list has what the package needs -/

/-- C174, without minor versions: every list has a package of the name and major version asked for, for all needs, with one
alternative of every choice.  What is missing: minor versions (`minor_refuted`). -/
theorem needs_met_partial (env : Env) (r : Relay) (l : List Pkg) (h : .ok l ∈ loadList env (some r)) : Sat (HasMajor l) r :=
  (resolve_ok env r [] l h).2

/-- C174, if no package is mentioned with two minor versions: every need is met by a compatible version. -/
theorem needs_met_same_minor_partial (env : Env) (r : Relay) (l : List Pkg) (h : .ok l ∈ loadList env (some r))
    (hm : ∀ p q, Mentions p r → Mentions q r → p.name = q.name → p.major = q.major → p.minor = q.minor) : Sat (Has l) r := by
  refine sat_mentions (needs_met_partial env r l h) fun p hp ⟨q, hq, h1, h2⟩ => ?_
  have hq' : Mentions q r := by
    rcases resolve_mentions env r [] l h q hq with h | h
    · exact absurd h List.not_mem_nil
    · exact h
  exact ⟨q, hq, h1, h2, by rw [hm p q hp hq' h1.symm h2.symm]⟩

/-- The example of the draft: A needs B, B needs C or both D and E; C cannot be found. -/
def draft : Relay :=
  .common [.common [.pick [.single ⟨3, 0, 0⟩, .common [.single ⟨4, 0, 0⟩, .single ⟨5, 0, 0⟩]], .single ⟨2, 0, 0⟩], .single ⟨1, 0, 0⟩]

def draftEnv : Env := ⟨fun p => p.name != 3, fun _ => true⟩

example : loadList draftEnv (some draft) = [.ok [⟨4, 0, 0⟩, ⟨5, 0, 0⟩, ⟨2, 0, 0⟩, ⟨1, 0, 0⟩]] := by
  simp [loadList, draft, draftEnv, resolve, resolveAll, alternatives, addPackage, inList, Pkg.same, candidates, shortest, minSize,
    addList]

/-- C174 is false of the program: of two minor versions the first one asked for stays, though the other one is newer. -/
theorem minor_refuted (env : Env) (hf : ∀ p, env.found p = true) :
    loadList env (some (.common [.single ⟨1, 0, 2⟩, .single ⟨1, 0, 5⟩])) = [.ok [⟨1, 0, 2⟩]] ∧
    ¬ Sat (Has [⟨1, 0, 2⟩]) (.common [.single ⟨1, 0, 2⟩, .single ⟨1, 0, 5⟩]) := by
  refine ⟨by simp [loadList, resolve, resolveAll, addPackage, inList, Pkg.same, hf], ?_⟩
  intro h
  obtain ⟨q, hq, _, _, hm⟩ := sat_single (sat_common h (.single ⟨1, 0, 5⟩) (by simp))
  rw [List.mem_singleton] at hq
  subst hq
  simp at hm

theorem firsts_append (l a b : List Pkg) : firsts l (a ++ b) = firsts l a ++ firsts (l ++ firsts l a) b := by
  induction a generalizing l with
  | nil => simp [firsts]
  | cons p ps ih =>
    simp only [List.cons_append, firsts]
    split
    · exact ih l
    · rw [ih]; simp

/-- What becomes of a list to which packages are added one after the other. -/
def added (env : Env) (l ps : List Pkg) : Outcome :=
  if (firsts l ps).all env.found then .ok (l ++ firsts l ps) else .notFound

mutual
theorem resolve_first (env : Env) : ∀ r, Plain r → ∀ l, resolve env r l = [added env l (leaves r)]
  | .single p, _, l => by
    unfold resolve leaves added addPackage inList
    simp only [firsts, Pkg.same]
    by_cases hl : (l.any fun q => q.name == p.name && q.major == p.major) = true
    · simp only [hl, if_true, List.all_nil, List.append_nil]
    · simp only [hl, Bool.false_eq_true, if_false]
      cases hf : env.found p <;> simp [hf]
  | .common rs, h, l => by
    have h' : ∀ r ∈ rs, Plain r := by cases h; assumption
    unfold resolve leaves
    exact resolveAll_first env rs h' l
  | .pick rs, h, l => by cases h
theorem resolveAll_first (env : Env) : ∀ rs, (∀ r ∈ rs, Plain r) → ∀ l, resolveAll env rs l = [added env l (leavesAll rs)]
  | [], _, l => by simp [resolveAll, leavesAll, added, firsts]
  | r :: rs, h, l => by
    unfold resolveAll leavesAll
    rw [resolve_first env r (h r (by simp)) l]
    simp only [List.flatMap_cons, List.flatMap_nil, List.append_nil]
    have he : added env l (leaves r ++ leavesAll rs) =
        if (firsts l (leaves r)).all env.found then added env (l ++ firsts l (leaves r)) (leavesAll rs) else .notFound := by
      unfold added
      rw [firsts_append, List.all_append]
      cases (firsts l (leaves r)).all env.found <;> simp
    rw [he]
    cases ha : (firsts l (leaves r)).all env.found
    · simp [added, ha]
    · simp only [added, ha, if_true]
      exact resolveAll_first env rs (fun r hr => h r (by simp [hr])) _
end

/-- **C174, what the program does if there is no choice**: the list is that of the first mention of each package, in their order; it
fails exactly if one of these cannot be found. -/
theorem plain_characterised (env : Env) (r : Relay) (hr : Plain r) :
    loadList env (some r) = [if (firsts [] (leaves r)).all env.found then .ok (firsts [] (leaves r)) else .notFound] := by
  simp only [loadList, resolve_first env r hr, added, List.nil_append]

-- of three mentions of package 1 the first stays, 2 with two major versions is there twice
example : firsts [] (leaves (.common [.single ⟨1, 0, 2⟩, .common [.single ⟨2, 1, 0⟩, .single ⟨1, 0, 5⟩], .single ⟨2, 2, 0⟩, .single ⟨1, 0, 0⟩])) =
    [⟨1, 0, 2⟩, ⟨2, 1, 0⟩, ⟨2, 2, 0⟩] ∧
    Plain (.common [.single ⟨1, 0, 2⟩, .common [.single ⟨2, 1, 0⟩, .single ⟨1, 0, 5⟩], .single ⟨2, 2, 0⟩, .single ⟨1, 0, 0⟩]) := by
  refine ⟨by simp [leaves, leavesAll, firsts], .common fun r hr => ?_⟩
  simp only [List.mem_cons, List.not_mem_nil, or_false] at hr
  rcases hr with rfl | rfl | rfl | rfl
  · exact .single
  · refine .common fun r hr => ?_
    simp only [List.mem_cons, List.not_mem_nil, or_false] at hr
    rcases hr with rfl | rfl <;> exact .single
  · exact .single
  · exact .single

/-! ### C175: a list has each package once, and only packages that can be found -/

/-- C175. -/
theorem list_good (env : Env) (r : Relay) (l : List Pkg) (h : .ok l ∈ loadList env (some r)) :
    (∀ p ∈ l, env.found p = true ∧ Mentions p r) ∧ l.Pairwise fun p q => ¬ (p.name = q.name ∧ p.major = q.major) := by
  have he := (resolve_ok env r [] l h).1
  have key : (∀ p ∈ l, env.found p = true) ∧ l.Pairwise fun p q => ¬ (p.name = q.name ∧ p.major = q.major) := by
    clear h
    induction he with
    | refl => exact ⟨fun p hp => absurd hp List.not_mem_nil, .nil⟩
    | @snoc l' p _ h1 h2 ih =>
      refine ⟨?_, ?_⟩
      · intro q hq
        rcases List.mem_append.mp hq with hq | hq
        · exact ih.1 q hq
        · rw [List.mem_singleton] at hq; rw [hq]; exact h2
      · rw [List.pairwise_append]
        refine ⟨ih.2, List.pairwise_singleton _ _, ?_⟩
        intro a ha b hb hab
        rw [List.mem_singleton] at hb
        subst hb
        rw [inList_iff.mpr ⟨a, ha, hab⟩] at h1
        simp at h1
  refine ⟨fun p hp => ⟨key.1 p hp, ?_⟩, key.2⟩
  rcases resolve_mentions env r [] l h p hp with h | h
  · exact absurd h List.not_mem_nil
  · exact h

/-- C175: what is needed first comes first: the list of the first of several needs is the beginning of the list. -/
theorem list_order (env : Env) (r : Relay) (rs : List Relay) (l : List Pkg) (h : .ok l ∈ loadList env (some (.common (r :: rs)))) :
    ∃ l', .ok l' ∈ loadList env (some r) ∧ l' <+: l := by
  simp only [loadList, resolve, resolveAll] at h
  obtain ⟨x, hx, ho⟩ := List.mem_flatMap.mp h
  cases x with
  | ok l' => exact ⟨l', hx, (resolveAll_ok env rs l' l ho).1.prefix⟩
  | _ => simp at ho

/-! ### C176: a failure means that the needs cannot be met -/

/-- C176, for `package_not_found`: it is thrown only if the packages that can be found do not meet the needs. -/
theorem not_found_sound (env : Env) (r : Relay) (h : .notFound ∈ loadList env (some r)) : ¬ Sat (env.found · = true) r :=
  resolve_notFound env r [] h

/-- C176, if there is no choice inside of a choice: the other exception, too, is thrown only if the needs cannot be met.
What is missing: nested choices (`nested_choice_refuted`). -/
theorem no_package_partial (env : Env) (r : Relay) (hf : Flat r) (h : .noPackage ∈ loadList env (some r)) :
    ¬ Sat (env.found · = true) r := resolve_noPackage env r [] hf h

-- a choice without an alternative that can be found
example : Outcome.noPackage ∈ loadList draftEnv (some (.pick [.single ⟨3, 0, 0⟩])) ∧ Flat (.pick [.single ⟨3, 0, 0⟩]) := by
  refine ⟨?_, .pick fun r hr => ?_⟩
  · simp [loadList, draftEnv, resolve, alternatives, addPackage, inList]
  · rw [List.mem_singleton] at hr; rw [hr]; exact .single

/-- C176 is false of the program: a choice that fails inside another one ends everything, although another alternative is
there. -/
theorem nested_choice_refuted (env : Env) (p q : Pkg) (hp : env.found p = false) (hq : env.found q = true) :
    loadList env (some (.pick [.pick [.single p], .single q])) = [.noPackage] ∧
    Sat (env.found · = true) (.pick [.pick [.single p], .single q]) := by
  refine ⟨?_, .pick (by simp : Relay.single q ∈ _) (.single hq)⟩
  simp [loadList, resolve, alternatives, addPackage, inList, hp]

/-- C176 is false of the program: a package nobody knows is not reported, the null pointer is used. -/
theorem unknown_package_refuted (env : Env) : loadList env none = [.undef] := rfl

/-! ### C177: a choice takes a shortest list, of these one with the most installed packages -/

/-- C177, exactly: from the lists of the alternatives the shortest are taken, and if there are several, of these the first ones
up to one that has fewer installed packages than another one has. -/
theorem candidates_characterised (env : Env) (ls : List (List Pkg)) :
    candidates env ls = if (shortest ls).length = 1 then shortest ls
      else (shortest ls).takeWhile fun l => l.countP env.installed = maxCount ((shortest ls).map fun l => l.countP env.installed) := by
  simp only [candidates]
  split
  · rfl
  · exact keepInstalled_takeWhile (installedCount env) _ (shortest ls) []

/-- C177, part: a list that is drawn is one of an alternative, it is as short as every other one, and none as short as it has
more installed packages. -/
theorem choice_best_partial (env : Env) (ls : List (List Pkg)) (c : List Pkg) (hc : c ∈ candidates env ls) :
    c ∈ ls ∧ ∀ l ∈ ls, c.length ≤ l.length ∧ (l.length = c.length → l.countP env.installed ≤ c.countP env.installed) := by
  have hs := candidates_sub env ls c hc
  have hcl := shortest_sub ls c hs
  have hne : ls ≠ [] := by intro h; subst h; exact absurd hcl List.not_mem_nil
  have hlen : c.length = minSize ls := by simpa using (List.mem_filter.mp hs).2
  refine ⟨hcl, fun l hl => ⟨?_, ?_⟩⟩
  · rw [hlen]; exact (minSize_spec hne).2 l hl
  · intro hll
    have hls : l ∈ shortest ls := List.mem_filter.mpr ⟨hl, by simpa using hll.trans hlen⟩
    rw [candidates_characterised] at hc
    split at hc
    · next h1 =>
      obtain ⟨x, hx⟩ := List.length_eq_one_iff.mp h1
      rw [hx, List.mem_singleton] at hls hs
      rw [hls, hs]
    · have := List.mem_takeWhile_imp hc
      have hcm : c.countP env.installed = maxCount ((shortest ls).map fun l => l.countP env.installed) := by simpa using this
      rw [hcm]
      exact le_maxCount _ _ (List.mem_map.mpr ⟨l, hls, rfl⟩)

/-- C177, for choices without further choices in them: if there is an outcome, it is the list of one of the alternatives, no
alternative has a shorter one, and none with as short a one has more packages installed.  What is missing: that there is an
outcome (`choice_refuted`). -/
theorem choice_partial (env : Env) (rs : List Relay) (hp : ∀ r ∈ rs, Plain r) (c : List Pkg)
    (h : .ok c ∈ loadList env (some (.pick rs))) :
    (∃ r ∈ rs, .ok c ∈ loadList env (some r)) ∧ ∀ r ∈ rs, ∀ l, .ok l ∈ loadList env (some r) →
      c.length ≤ l.length ∧ (l.length = c.length → l.countP env.installed ≤ c.countP env.installed) := by
  simp only [loadList] at h ⊢
  rcases pick_cases h with h | ⟨ls, hls, ⟨_, h⟩ | ⟨_, _, h⟩ | ⟨_, c', hc, h⟩⟩
  · exact absurd h (alternatives_error env rs [] c)
  · simp at h
  · simp at h
  · rw [addList_noFail hls hc] at h
    injection h with h
    subst h
    obtain ⟨h1, h2⟩ := choice_best_partial env ls c hc
    have hall := alternatives_plain_all env [] rs hp ls hls
    exact ⟨(hall c).mp h1, fun r hr l hl => h2 l ((hall l).mpr ⟨r, hr, hl⟩)⟩

/-- C177, exactly when nothing can be drawn although there are alternatives: there are several shortest lists, and the first
of them has fewer installed packages than another one. -/
theorem choice_undefined_characterised (env : Env) (ls : List (List Pkg)) (h : ls ≠ []) :
    candidates env ls = [] ↔ ∃ c cs, shortest ls = c :: cs ∧ ∃ l ∈ cs, c.countP env.installed < l.countP env.installed := by
  obtain ⟨l0, hl0, hm0⟩ := (minSize_spec h).1
  have hmem : l0 ∈ shortest ls := List.mem_filter.mpr ⟨hl0, by simpa using hm0.symm⟩
  rw [candidates_characterised]
  cases hs : shortest ls with
  | nil => rw [hs] at hmem; exact absurd hmem List.not_mem_nil
  | cons c cs =>
    have hcnt : ∀ l ∈ c :: cs, l.countP env.installed ≤ maxCount ((c :: cs).map fun l => l.countP env.installed) :=
      fun l hl => le_maxCount _ _ (List.mem_map.mpr ⟨l, hl, rfl⟩)
    constructor
    · intro he
      refine ⟨c, cs, rfl, ?_⟩
      split at he
      · simp at he
      · have hc : c.countP env.installed ≠ maxCount ((c :: cs).map fun l => l.countP env.installed) := by
          intro hc
          rw [List.takeWhile_cons_of_pos (by simpa using hc)] at he
          simp at he
        have hmx := maxCount_mem (cs := (c :: cs).map fun l => l.countP env.installed) (by simp)
        obtain ⟨l, hl, hle⟩ := List.mem_map.mp hmx
        rcases List.mem_cons.mp hl with hlc | hl
        · rw [hlc] at hle; exact absurd hle hc
        · refine ⟨l, hl, ?_⟩
          have := hcnt c List.mem_cons_self
          omega
    · rintro ⟨c', cs', hcc, l, hl, hlt⟩
      injection hcc with h1 h2
      subst h1 h2
      have hlen : ¬ (c :: cs).length = 1 := by
        cases cs with
        | nil => exact absurd hl List.not_mem_nil
        | cons _ _ => simp
      rw [if_neg hlen]
      have := hcnt l (List.mem_cons_of_mem _ hl)
      exact List.takeWhile_cons_of_neg (by simp only [decide_eq_true_eq]; omega)

/-- C177 is false of the program: of two packages the second is installed, the first is not; all lists are erased and the
remainder of a division by zero is taken. -/
theorem choice_refuted (env : Env) (p q : Pkg) (hp : env.found p = true) (hq : env.found q = true)
    (hip : env.installed p = false) (hiq : env.installed q = true) :
    loadList env (some (.pick [.single p, .single q])) = [.undef] ∧ Sat (env.found · = true) (.pick [.single p, .single q]) := by
  refine ⟨?_, .pick (by simp : Relay.single p ∈ _) (.single hp)⟩
  simp [loadList, resolve, alternatives, addPackage, inList, hp, hq, candidates, shortest, minSize, keepInstalled, maxCount,
    installedCount, hip, hiq]

/-- The other way round it is the installed one that is taken. -/
theorem choice_first (env : Env) (p q : Pkg) (hp : env.found p = true) (hq : env.found q = true)
    (hip : env.installed p = true) (hiq : env.installed q = false) :
    loadList env (some (.pick [.single p, .single q])) = [.ok [p]] := by
  simp [loadList, resolve, alternatives, addPackage, inList, hp, hq, candidates, shortest, minSize, keepInstalled, maxCount,
    installedCount, hip, hiq, addList]

end ELC.Package
