import Verif.Package.Spec
/-! Lemmas for Props. -/
namespace ELC.Package
open Spec

theorem same_refl (p : Pkg) : p.same p = true := by simp [Pkg.same]

theorem same_iff {p q : Pkg} : p.same q = true ↔ p.name = q.name ∧ p.major = q.major := by simp [Pkg.same]

theorem inList_iff {l : List Pkg} {p : Pkg} : inList l p = true ↔ HasMajor l p := by
  unfold inList HasMajor
  rw [List.any_eq_true]
  constructor
  · rintro ⟨q, hq, hs⟩; exact ⟨q, hq, same_iff.mp hs⟩
  · rintro ⟨q, hq, hs⟩; exact ⟨q, hq, same_iff.mpr hs⟩

/-- A list grown by packages that can be found and were not in it. -/
inductive Ext (env : Env) (l : List Pkg) : List Pkg → Prop
  | refl : Ext env l l
  | snoc {l' : List Pkg} {p : Pkg} : Ext env l l' → inList l' p = false → env.found p = true → Ext env l (l' ++ [p])

theorem Ext.trans {env : Env} {a b c : List Pkg} (h : Ext env a b) (h' : Ext env b c) : Ext env a c := by
  induction h' with
  | refl => exact h
  | snoc _ h1 h2 ih => exact .snoc ih h1 h2

theorem Ext.sub {env : Env} {a b : List Pkg} (h : Ext env a b) : ∀ p ∈ a, p ∈ b := by
  induction h with
  | refl => exact fun p hp => hp
  | snoc _ _ _ ih => exact fun p hp => List.mem_append_left _ (ih p hp)

theorem Ext.prefix {env : Env} {a b : List Pkg} (h : Ext env a b) : a <+: b := by
  induction h with
  | refl => exact List.prefix_refl _
  | snoc _ _ _ ih => exact ih.trans (List.prefix_append _ _)

theorem addPackage_ext {env : Env} {l l' : List Pkg} {p : Pkg} (h : addPackage env l p = .ok l') :
    Ext env l l' ∧ HasMajor l' p := by
  unfold addPackage at h
  by_cases h1 : inList l p = true
  · rw [if_pos h1] at h
    injection h with h
    subst h
    exact ⟨.refl, inList_iff.mp h1⟩
  · rw [if_neg h1] at h
    by_cases h2 : env.found p = true
    · rw [if_pos h2] at h
      injection h with h
      subst h
      exact ⟨.snoc .refl (by simpa using h1) h2, p, by simp, rfl, rfl⟩
    · rw [if_neg h2] at h; simp at h

theorem addList_append (env : Env) (ps qs : List Pkg) : ∀ l : List Pkg,
    addList env l (ps ++ qs) = match addList env l ps with
      | .ok l' => addList env l' qs
      | o => o := by
  induction ps with
  | nil => intro l; rfl
  | cons p ps ih =>
    intro l
    simp only [List.cons_append, addList]
    cases h : addPackage env l p with
    | ok l' => exact ih l'
    | _ => rfl

theorem addList_in (env : Env) (l : List Pkg) : ∀ ps : List Pkg, (∀ p ∈ ps, p ∈ l) → addList env l ps = .ok l := by
  intro ps
  induction ps with
  | nil => intro _; rfl
  | cons p ps ih =>
    intro h
    have : inList l p = true := inList_iff.mpr ⟨p, h p List.mem_cons_self, rfl, rfl⟩
    simp only [addList, addPackage, this, if_true]
    exact ih fun q hq => h q (List.mem_cons_of_mem _ hq)

/-- Adding a list that was grown from this one gives that list. -/
theorem addList_ext {env : Env} {l l' : List Pkg} (h : Ext env l l') : addList env l l' = .ok l' := by
  induction h with
  | refl => exact addList_in env l l fun p hp => hp
  | snoc _ h1 h2 ih =>
    rw [addList_append, ih]
    simp [addList, addPackage, h1, h2]

theorem keepInstalled_sub (counts : List Nat) (m : Nat) (ls : List (List Pkg)) :
    ∀ i, ∀ c ∈ keepInstalled counts m i ls, c ∈ ls := by
  induction ls with
  | nil => intro i c hc; exact hc
  | cons l ls ih =>
    intro i c hc
    simp only [keepInstalled] at hc
    split at hc
    · exact List.mem_cons_of_mem _ (ih i c hc)
    · rcases List.mem_cons.mp hc with hc | hc
      · exact hc ▸ List.mem_cons_self
      · exact List.mem_cons_of_mem _ (ih _ c hc)

theorem candidates_sub (env : Env) (ls : List (List Pkg)) : ∀ c ∈ candidates env ls, c ∈ shortest ls := by
  intro c hc
  simp only [candidates] at hc
  split at hc
  · exact hc
  · exact keepInstalled_sub _ _ _ _ c hc

theorem shortest_sub (ls : List (List Pkg)) : ∀ c ∈ shortest ls, c ∈ ls := fun _ hc => (List.mem_filter.mp hc).1

/-- What a choice can give. -/
theorem pick_cases {env : Env} {rs : List Relay} {l : List Pkg} {o : Outcome} (h : o ∈ resolve env (.pick rs) l) :
    (.error o ∈ alternatives env rs l) ∨ ∃ ls, .ok ls ∈ alternatives env rs l ∧
      ((ls = [] ∧ o = .noPackage) ∨ (ls ≠ [] ∧ candidates env ls = [] ∧ o = .undef) ∨
        (ls ≠ [] ∧ ∃ c ∈ candidates env ls, o = addList env l c)) := by
  simp only [resolve] at h
  obtain ⟨x, hx, ho⟩ := List.mem_flatMap.mp h
  cases x with
  | error o' =>
    simp only [List.mem_singleton] at ho
    subst ho
    exact Or.inl hx
  | ok ls =>
    refine Or.inr ⟨ls, hx, ?_⟩
    dsimp only at ho
    by_cases hn : ls = []
    · rw [if_pos hn, List.mem_singleton] at ho
      exact Or.inl ⟨hn, ho⟩
    · rw [if_neg hn] at ho
      cases hc : candidates env ls with
      | nil => rw [hc] at ho; exact Or.inr (Or.inl ⟨hn, rfl, by simpa using ho⟩)
      | cons c cs =>
        rw [hc] at ho
        obtain ⟨c', hc', rfl⟩ := List.mem_map.mp ho
        exact Or.inr (Or.inr ⟨hn, c', hc', rfl⟩)

theorem Sat.mono {P Q : Pkg → Prop} (h : ∀ p, P p → Q p) {r : Relay} (hs : Sat P r) : Sat Q r := by
  induction hs with
  | single hp => exact .single (h _ hp)
  | common _ ih => exact .common ih
  | pick hr _ ih => exact .pick hr ih

theorem hasMajor_mono {a b : List Pkg} (h : ∀ p ∈ a, p ∈ b) (p : Pkg) : HasMajor a p → HasMajor b p := by
  rintro ⟨q, hq, hs⟩; exact ⟨q, h q hq, hs⟩

mutual
theorem resolve_ok (env : Env) : ∀ (r : Relay) (l l' : List Pkg), .ok l' ∈ resolve env r l → Ext env l l' ∧ Sat (HasMajor l') r
  | .single p, l, l', h => by
    simp only [resolve, List.mem_singleton] at h
    have := addPackage_ext h.symm
    exact ⟨this.1, .single this.2⟩
  | .common rs, l, l', h => by
    simp only [resolve] at h
    have := resolveAll_ok env rs l l' h
    exact ⟨this.1, .common this.2⟩
  | .pick rs, l, l', h => by
    rcases pick_cases h with h | ⟨ls, hls, ⟨_, h⟩ | ⟨_, _, h⟩ | ⟨_, c, hc, h⟩⟩
    · exact absurd h (alternatives_error env rs l l')
    · simp at h
    · simp at h
    · have hc' := shortest_sub ls c (candidates_sub env ls c hc)
      obtain ⟨he, r, hr, hs⟩ := alternatives_ok env rs l ls hls c hc'
      rw [addList_ext he] at h
      injection h with h
      subst h
      exact ⟨he, .pick hr hs⟩
theorem resolveAll_ok (env : Env) : ∀ (rs : List Relay) (l l' : List Pkg), .ok l' ∈ resolveAll env rs l →
    Ext env l l' ∧ ∀ r ∈ rs, Sat (HasMajor l') r
  | [], l, l', h => by
    simp only [resolveAll, List.mem_singleton, Outcome.ok.injEq] at h
    subst h
    exact ⟨.refl, fun r hr => absurd hr List.not_mem_nil⟩
  | r :: rs, l, l', h => by
    simp only [resolveAll] at h
    obtain ⟨x, hx, ho⟩ := List.mem_flatMap.mp h
    cases x with
    | ok l1 =>
      obtain ⟨e1, s1⟩ := resolve_ok env r l l1 hx
      obtain ⟨e2, s2⟩ := resolveAll_ok env rs l1 l' ho
      refine ⟨e1.trans e2, fun r' hr' => ?_⟩
      rcases List.mem_cons.mp hr' with hr' | hr'
      · rw [hr']; exact Sat.mono (hasMajor_mono e2.sub) s1
      · exact s2 r' hr'
    | _ => simp at ho
theorem alternatives_ok (env : Env) : ∀ (rs : List Relay) (l : List Pkg) (ls : List (List Pkg)), .ok ls ∈ alternatives env rs l →
    ∀ c ∈ ls, Ext env l c ∧ ∃ r ∈ rs, Sat (HasMajor c) r
  | [], l, ls, h => by
    simp only [alternatives, List.mem_singleton, Except.ok.injEq] at h
    subst h
    exact fun c hc => absurd hc List.not_mem_nil
  | r :: rs, l, ls, h => by
    simp only [alternatives] at h
    obtain ⟨x, hx, ho⟩ := List.mem_flatMap.mp h
    have rest : ∀ ls', .ok ls' ∈ alternatives env rs l → ∀ c ∈ ls', Ext env l c ∧ ∃ r' ∈ r :: rs, Sat (HasMajor c) r' := by
      intro ls' h' c hc
      obtain ⟨e, r', hr', hs⟩ := alternatives_ok env rs l ls' h' c hc
      exact ⟨e, r', List.mem_cons_of_mem _ hr', hs⟩
    cases x with
    | ok l1 =>
      obtain ⟨y, hy, hyo⟩ := List.mem_map.mp ho
      cases y with
      | error o => simp at hyo
      | ok ls' =>
        simp only [Except.ok.injEq] at hyo
        subst hyo
        intro c hc
        rcases List.mem_cons.mp hc with hc | hc
        · subst hc
          obtain ⟨e1, s1⟩ := resolve_ok env r l c hx
          exact ⟨e1, r, List.mem_cons_self, s1⟩
        · exact rest ls' hy c hc
    | notFound => exact rest ls ho
    | noPackage => simp at ho
    | undef => simp at ho
theorem alternatives_error (env : Env) : ∀ (rs : List Relay) (l l' : List Pkg), .error (.ok l') ∉ alternatives env rs l
  | [], l, l', h => by simp [alternatives] at h
  | r :: rs, l, l', h => by
    simp only [alternatives] at h
    obtain ⟨x, hx, ho⟩ := List.mem_flatMap.mp h
    cases x with
    | ok l1 =>
      obtain ⟨y, hy, hyo⟩ := List.mem_map.mp ho
      cases y with
      | error o =>
        simp only [Except.error.injEq] at hyo
        subst hyo
        exact alternatives_error env rs l l' hy
      | ok ls' => simp at hyo
    | notFound => exact alternatives_error env rs l l' ho
    | noPackage => simp at ho
    | undef => simp at ho
end

/-! Failures. -/

theorem addPackage_fail {env : Env} {l : List Pkg} {p : Pkg} {o : Outcome} (h : addPackage env l p = o) (hn : ∀ l', o ≠ .ok l') :
    o = .notFound ∧ env.found p = false := by
  unfold addPackage at h
  split at h
  · exact absurd h.symm (hn _)
  · split at h
    · exact absurd h.symm (hn _)
    · next hf => exact ⟨h.symm, by simpa using hf⟩

theorem sat_single {P : Pkg → Prop} {p : Pkg} (h : Sat P (.single p)) : P p := by cases h; assumption
theorem sat_common {P : Pkg → Prop} {rs : List Relay} (h : Sat P (.common rs)) : ∀ r ∈ rs, Sat P r := by cases h; assumption
theorem sat_pick {P : Pkg → Prop} {rs : List Relay} (h : Sat P (.pick rs)) : ∃ r ∈ rs, Sat P r := by
  cases h with | pick hr hs => exact ⟨_, hr, hs⟩

theorem addList_noFail {env : Env} {rs : List Relay} {l c : List Pkg} {ls : List (List Pkg)}
    (hls : .ok ls ∈ alternatives env rs l) (hc : c ∈ candidates env ls) : addList env l c = .ok c :=
  addList_ext (alternatives_ok env rs l ls hls c (shortest_sub ls c (candidates_sub env ls c hc))).1

mutual
theorem resolve_notFound (env : Env) : ∀ (r : Relay) (l : List Pkg), .notFound ∈ resolve env r l → ¬ Sat (env.found · = true) r
  | .single p, l, h => by
    simp only [resolve, List.mem_singleton] at h
    intro hs
    have := (addPackage_fail h.symm (by simp)).2
    rw [sat_single hs] at this
    simp at this
  | .common rs, l, h => by
    simp only [resolve] at h
    obtain ⟨r, hr, hn⟩ := resolveAll_notFound env rs l h
    exact fun hs => hn (sat_common hs r hr)
  | .pick rs, l, h => by
    rcases pick_cases h with h | ⟨ls, hls, ⟨_, h⟩ | ⟨_, _, h⟩ | ⟨_, c, hc, h⟩⟩
    · exact absurd h (alternatives_notFound env rs l)
    · simp at h
    · simp at h
    · rw [addList_noFail hls hc] at h; simp at h
theorem resolveAll_notFound (env : Env) : ∀ (rs : List Relay) (l : List Pkg), .notFound ∈ resolveAll env rs l →
    ∃ r ∈ rs, ¬ Sat (env.found · = true) r
  | [], l, h => by simp [resolveAll] at h
  | r :: rs, l, h => by
    simp only [resolveAll] at h
    obtain ⟨x, hx, ho⟩ := List.mem_flatMap.mp h
    cases x with
    | ok l1 =>
      obtain ⟨r', hr', hn⟩ := resolveAll_notFound env rs l1 ho
      exact ⟨r', List.mem_cons_of_mem _ hr', hn⟩
    | notFound => exact ⟨r, List.mem_cons_self, resolve_notFound env r l hx⟩
    | noPackage => simp at ho
    | undef => simp at ho
theorem alternatives_notFound (env : Env) : ∀ (rs : List Relay) (l : List Pkg), .error .notFound ∉ alternatives env rs l
  | [], l, h => by simp [alternatives] at h
  | r :: rs, l, h => by
    simp only [alternatives] at h
    obtain ⟨x, hx, ho⟩ := List.mem_flatMap.mp h
    cases x with
    | ok l1 =>
      obtain ⟨y, hy, hyo⟩ := List.mem_map.mp ho
      cases y with
      | error o =>
        simp only [Except.error.injEq] at hyo
        subst hyo
        exact alternatives_notFound env rs l hy
      | ok ls' => simp at hyo
    | notFound => exact alternatives_notFound env rs l ho
    | noPackage => simp at ho
    | undef => simp at ho
end

mutual
/-- Without a choice there is one outcome: a list or `package_not_found`. -/
theorem resolve_plain (env : Env) : ∀ (r : Relay) (l : List Pkg), Plain r → ∀ o ∈ resolve env r l, o = .notFound ∨ ∃ l', o = .ok l'
  | .single p, l, _, o, h => by
    simp only [resolve, List.mem_singleton] at h
    cases o with
    | ok l' => exact Or.inr ⟨l', rfl⟩
    | notFound => exact Or.inl rfl
    | noPackage => exact absurd (addPackage_fail h.symm (by simp)).1 (by simp)
    | undef => exact absurd (addPackage_fail h.symm (by simp)).1 (by simp)
  | .common rs, l, hp, o, h => by
    simp only [resolve] at h
    have hp' : ∀ r ∈ rs, Plain r := by cases hp; assumption
    exact resolveAll_plain env rs l hp' o h
  | .pick rs, l, hp, o, h => by cases hp
theorem resolveAll_plain (env : Env) : ∀ (rs : List Relay) (l : List Pkg), (∀ r ∈ rs, Plain r) → ∀ o ∈ resolveAll env rs l,
    o = .notFound ∨ ∃ l', o = .ok l'
  | [], l, _, o, h => by
    simp only [resolveAll, List.mem_singleton] at h
    exact Or.inr ⟨l, h⟩
  | r :: rs, l, hp, o, h => by
    simp only [resolveAll] at h
    obtain ⟨x, hx, ho⟩ := List.mem_flatMap.mp h
    rcases resolve_plain env r l (hp r List.mem_cons_self) x hx with hx' | ⟨l1, hx'⟩
    · subst hx'; exact Or.inl (by simpa using ho)
    · subst hx'; exact resolveAll_plain env rs l1 (fun r' hr' => hp r' (List.mem_cons_of_mem _ hr')) o ho
end

/-- Choices among plain needs: what is left out cannot be met. -/
theorem alternatives_plain (env : Env) (l : List Pkg) : ∀ (rs : List Relay), (∀ r ∈ rs, Plain r) →
    (∀ o, .error o ∉ alternatives env rs l) ∧ (.ok [] ∈ alternatives env rs l → ∀ r ∈ rs, ¬ Sat (env.found · = true) r) := by
  intro rs
  induction rs with
  | nil =>
    intro _
    exact ⟨fun o h => by simp [alternatives] at h, fun _ r hr => absurd hr List.not_mem_nil⟩
  | cons r rs ih =>
    intro hp
    obtain ⟨i1, i2⟩ := ih fun r' hr' => hp r' (List.mem_cons_of_mem _ hr')
    constructor
    · intro o h
      simp only [alternatives] at h
      obtain ⟨x, hx, ho⟩ := List.mem_flatMap.mp h
      rcases resolve_plain env r l (hp r List.mem_cons_self) x hx with hx' | ⟨l1, hx'⟩
      · subst hx'; exact i1 o ho
      · subst hx'
        obtain ⟨y, hy, hyo⟩ := List.mem_map.mp ho
        cases y with
        | error o' => exact i1 o' hy
        | ok ls' => simp at hyo
    · intro h
      simp only [alternatives] at h
      obtain ⟨x, hx, ho⟩ := List.mem_flatMap.mp h
      rcases resolve_plain env r l (hp r List.mem_cons_self) x hx with hx' | ⟨l1, hx'⟩
      · subst hx'
        intro r' hr'
        rcases List.mem_cons.mp hr' with hr' | hr'
        · rw [hr']; exact resolve_notFound env r l hx
        · exact i2 ho r' hr'
      · subst hx'
        obtain ⟨y, hy, hyo⟩ := List.mem_map.mp ho
        cases y with
        | error o' => simp at hyo
        | ok ls' => simp at hyo

mutual
theorem resolve_noPackage (env : Env) : ∀ (r : Relay) (l : List Pkg), Flat r → .noPackage ∈ resolve env r l →
    ¬ Sat (env.found · = true) r
  | .single p, l, _, h => by
    simp only [resolve, List.mem_singleton] at h
    exact absurd (addPackage_fail h.symm (by simp)).1 (by simp)
  | .common rs, l, hf, h => by
    simp only [resolve] at h
    have hf' : ∀ r ∈ rs, Flat r := by cases hf; assumption
    obtain ⟨r, hr, hn⟩ := resolveAll_noPackage env rs l hf' h
    exact fun hs => hn (sat_common hs r hr)
  | .pick rs, l, hf, h => by
    have hf' : ∀ r ∈ rs, Plain r := by cases hf; assumption
    obtain ⟨a1, a2⟩ := alternatives_plain env l rs hf'
    rcases pick_cases h with h | ⟨ls, hls, ⟨hn, _⟩ | ⟨_, _, h⟩ | ⟨_, c, hc, h⟩⟩
    · exact absurd h (a1 _)
    · subst hn
      intro hs
      obtain ⟨r, hr, hs⟩ := sat_pick hs
      exact a2 hls r hr hs
    · simp at h
    · rw [addList_noFail hls hc] at h; simp at h
theorem resolveAll_noPackage (env : Env) : ∀ (rs : List Relay) (l : List Pkg), (∀ r ∈ rs, Flat r) →
    .noPackage ∈ resolveAll env rs l → ∃ r ∈ rs, ¬ Sat (env.found · = true) r
  | [], l, _, h => by simp [resolveAll] at h
  | r :: rs, l, hf, h => by
    simp only [resolveAll] at h
    obtain ⟨x, hx, ho⟩ := List.mem_flatMap.mp h
    cases x with
    | ok l1 =>
      obtain ⟨r', hr', hn⟩ := resolveAll_noPackage env rs l1 (fun r' hr' => hf r' (List.mem_cons_of_mem _ hr')) ho
      exact ⟨r', List.mem_cons_of_mem _ hr', hn⟩
    | notFound => simp at ho
    | noPackage => exact ⟨r, List.mem_cons_self, resolve_noPackage env r l (hf r List.mem_cons_self) hx⟩
    | undef => simp at ho
end

mutual
/-- Without a choice there is one outcome. -/
theorem resolve_plain_one (env : Env) : ∀ (r : Relay) (l : List Pkg), Plain r → ∃ o, resolve env r l = [o]
  | .single p, l, _ => ⟨addPackage env l p, by simp only [resolve]⟩
  | .common rs, l, hp => by
    have hp' : ∀ r ∈ rs, Plain r := by cases hp; assumption
    simp only [resolve]
    exact resolveAll_plain_one env rs l hp'
  | .pick rs, l, hp => by cases hp
theorem resolveAll_plain_one (env : Env) : ∀ (rs : List Relay) (l : List Pkg), (∀ r ∈ rs, Plain r) → ∃ o, resolveAll env rs l = [o]
  | [], l, _ => ⟨.ok l, by simp only [resolveAll]⟩
  | r :: rs, l, hp => by
    obtain ⟨o, ho⟩ := resolve_plain_one env r l (hp r List.mem_cons_self)
    simp only [resolveAll, ho, List.flatMap_cons, List.flatMap_nil, List.append_nil]
    cases o with
    | ok l1 => exact resolveAll_plain_one env rs l1 fun r' hr' => hp r' (List.mem_cons_of_mem _ hr')
    | notFound => exact ⟨_, rfl⟩
    | noPackage => exact ⟨_, rfl⟩
    | undef => exact ⟨_, rfl⟩
end

/-- The lists of plain alternatives are all there, and only they. -/
theorem alternatives_plain_all (env : Env) (l : List Pkg) : ∀ (rs : List Relay), (∀ r ∈ rs, Plain r) →
    ∀ ls, .ok ls ∈ alternatives env rs l → ∀ c, c ∈ ls ↔ ∃ r ∈ rs, .ok c ∈ resolve env r l := by
  intro rs
  induction rs with
  | nil =>
    intro _ ls h c
    simp only [alternatives, List.mem_singleton, Except.ok.injEq] at h
    subst h
    simp
  | cons r rs ih =>
    intro hp ls h c
    have ih' := ih fun r' hr' => hp r' (List.mem_cons_of_mem _ hr')
    obtain ⟨o, ho⟩ := resolve_plain_one env r l (hp r List.mem_cons_self)
    have hno := resolve_plain env r l (hp r List.mem_cons_self) o (by rw [ho]; exact List.mem_cons_self)
    simp only [alternatives, ho, List.flatMap_cons, List.flatMap_nil, List.append_nil] at h
    simp only [List.mem_cons, exists_eq_or_imp, ho]
    rcases hno with hno | ⟨l1, hno⟩
    · subst hno
      rw [ih' ls h c]
      simp
    · subst hno
      obtain ⟨y, hy, hyo⟩ := List.mem_map.mp h
      cases y with
      | error o' => simp at hyo
      | ok ls' =>
        simp only [Except.ok.injEq] at hyo
        subst hyo
        simp only [List.mem_cons, ih' ls' hy c, Outcome.ok.injEq, List.not_mem_nil, or_false]

/-! Where the packages come from. -/

mutual
theorem resolve_mentions (env : Env) : ∀ (r : Relay) (l l' : List Pkg), .ok l' ∈ resolve env r l → ∀ p ∈ l', p ∈ l ∨ Mentions p r
  | .single q, l, l', h, p, hp => by
    simp only [resolve, List.mem_singleton] at h
    unfold addPackage at h
    split at h
    · injection h with h; rw [h] at hp; exact Or.inl hp
    · split at h
      · injection h with h
        rw [h] at hp
        rcases List.mem_append.mp hp with hp | hp
        · exact Or.inl hp
        · rw [List.mem_singleton] at hp; rw [hp]; exact Or.inr .single
      · simp at h
  | .common rs, l, l', h, p, hp => by
    simp only [resolve] at h
    rcases resolveAll_mentions env rs l l' h p hp with hp | ⟨r, hr, hm⟩
    · exact Or.inl hp
    · exact Or.inr (.common hr hm)
  | .pick rs, l, l', h, p, hp => by
    rcases pick_cases h with h | ⟨ls, hls, ⟨_, h⟩ | ⟨_, _, h⟩ | ⟨_, c, hc, h⟩⟩
    · exact absurd h (alternatives_error env rs l l')
    · simp at h
    · simp at h
    · rw [addList_noFail hls hc] at h
      injection h with h
      subst h
      rcases alternatives_mentions env rs l ls hls l' (shortest_sub ls l' (candidates_sub env ls l' hc)) p hp with hp | ⟨r, hr, hm⟩
      · exact Or.inl hp
      · exact Or.inr (.pick hr hm)
theorem resolveAll_mentions (env : Env) : ∀ (rs : List Relay) (l l' : List Pkg), .ok l' ∈ resolveAll env rs l →
    ∀ p ∈ l', p ∈ l ∨ ∃ r ∈ rs, Mentions p r
  | [], l, l', h, p, hp => by
    simp only [resolveAll, List.mem_singleton, Outcome.ok.injEq] at h
    subst h
    exact Or.inl hp
  | r :: rs, l, l', h, p, hp => by
    simp only [resolveAll] at h
    obtain ⟨x, hx, ho⟩ := List.mem_flatMap.mp h
    cases x with
    | ok l1 =>
      rcases resolveAll_mentions env rs l1 l' ho p hp with hp | ⟨r', hr', hm⟩
      · rcases resolve_mentions env r l l1 hx p hp with hp | hm
        · exact Or.inl hp
        · exact Or.inr ⟨r, List.mem_cons_self, hm⟩
      · exact Or.inr ⟨r', List.mem_cons_of_mem _ hr', hm⟩
    | _ => simp at ho
theorem alternatives_mentions (env : Env) : ∀ (rs : List Relay) (l : List Pkg) (ls : List (List Pkg)),
    .ok ls ∈ alternatives env rs l → ∀ c ∈ ls, ∀ p ∈ c, p ∈ l ∨ ∃ r ∈ rs, Mentions p r
  | [], l, ls, h => by
    simp only [alternatives, List.mem_singleton, Except.ok.injEq] at h
    subst h
    exact fun c hc => absurd hc List.not_mem_nil
  | r :: rs, l, ls, h => by
    simp only [alternatives] at h
    obtain ⟨x, hx, ho⟩ := List.mem_flatMap.mp h
    have rest : ∀ ls', .ok ls' ∈ alternatives env rs l → ∀ c ∈ ls', ∀ p ∈ c, p ∈ l ∨ ∃ r' ∈ r :: rs, Mentions p r' := by
      intro ls' h' c hc p hp
      rcases alternatives_mentions env rs l ls' h' c hc p hp with hp | ⟨r', hr', hm⟩
      · exact Or.inl hp
      · exact Or.inr ⟨r', List.mem_cons_of_mem _ hr', hm⟩
    cases x with
    | ok l1 =>
      obtain ⟨y, hy, hyo⟩ := List.mem_map.mp ho
      cases y with
      | error o => simp at hyo
      | ok ls' =>
        simp only [Except.ok.injEq] at hyo
        subst hyo
        intro c hc p hp
        rcases List.mem_cons.mp hc with hc | hc
        · subst hc
          rcases resolve_mentions env r l c hx p hp with hp | hm
          · exact Or.inl hp
          · exact Or.inr ⟨r, List.mem_cons_self, hm⟩
        · exact rest ls' hy c hc p hp
    | notFound => exact rest ls ho
    | noPackage => simp at ho
    | undef => simp at ho
end

theorem sat_mentions {P Q : Pkg → Prop} {r : Relay} (hs : Sat P r) (h : ∀ p, Mentions p r → P p → Q p) : Sat Q r := by
  induction hs with
  | single hp => exact .single (h _ .single hp)
  | common _ ih => exact .common fun r hr => ih r hr fun p hm => h p (.common hr hm)
  | pick hr _ ih => exact .pick hr (ih fun p hm => h p (.pick hr hm))

/-! The choice. -/

theorem foldl_min (ls : List (List Pkg)) : ∀ m : Nat,
    ls.foldl (fun m l => if l.length < m then l.length else m) m ≤ m ∧
    (∀ l ∈ ls, ls.foldl (fun m l => if l.length < m then l.length else m) m ≤ l.length) ∧
    (ls.foldl (fun m l => if l.length < m then l.length else m) m = m ∨
      ∃ l ∈ ls, ls.foldl (fun m l => if l.length < m then l.length else m) m = l.length) := by
  induction ls with
  | nil => intro m; exact ⟨Nat.le_refl _, fun l h => absurd h List.not_mem_nil, Or.inl rfl⟩
  | cons l ls ih =>
    intro m
    simp only [List.foldl_cons]
    obtain ⟨i1, i2, i3⟩ := ih (if l.length < m then l.length else m)
    have hb : (if l.length < m then l.length else m) ≤ m ∧ (if l.length < m then l.length else m) ≤ l.length := by
      split <;> omega
    refine ⟨?_, ?_, ?_⟩
    · exact Nat.le_trans i1 hb.1
    · intro x hx
      rcases List.mem_cons.mp hx with hx | hx
      · rw [hx]; exact Nat.le_trans i1 hb.2
      · exact i2 x hx
    · rcases i3 with i3 | ⟨x, hx, i3⟩
      · by_cases hlt : l.length < m
        · rw [if_pos hlt] at i3 ⊢
          exact Or.inr ⟨l, List.mem_cons_self, i3⟩
        · rw [if_neg hlt] at i3 ⊢
          exact Or.inl i3
      · exact Or.inr ⟨x, List.mem_cons_of_mem _ hx, i3⟩

theorem minSize_spec {ls : List (List Pkg)} (h : ls ≠ []) : (∃ l ∈ ls, minSize ls = l.length) ∧ ∀ l ∈ ls, minSize ls ≤ l.length := by
  cases ls with
  | nil => exact absurd rfl h
  | cons l ls =>
    obtain ⟨i1, i2, i3⟩ := foldl_min ls l.length
    simp only [minSize]
    refine ⟨?_, ?_⟩
    · rcases i3 with i3 | ⟨x, hx, i3⟩
      · exact ⟨l, List.mem_cons_self, i3⟩
      · exact ⟨x, List.mem_cons_of_mem _ hx, i3⟩
    · intro x hx
      rcases List.mem_cons.mp hx with hx | hx
      · rw [hx]; exact i1
      · exact i2 x hx

theorem foldl_max (cs : List Nat) : ∀ m : Nat,
    m ≤ cs.foldl (fun m c => if c > m then c else m) m ∧ (∀ c ∈ cs, c ≤ cs.foldl (fun m c => if c > m then c else m) m) ∧
    (cs.foldl (fun m c => if c > m then c else m) m = m ∨ cs.foldl (fun m c => if c > m then c else m) m ∈ cs) := by
  induction cs with
  | nil => intro m; exact ⟨Nat.le_refl _, fun c h => absurd h List.not_mem_nil, Or.inl rfl⟩
  | cons c cs ih =>
    intro m
    simp only [List.foldl_cons]
    obtain ⟨i1, i2, i3⟩ := ih (if c > m then c else m)
    have hb : m ≤ (if c > m then c else m) ∧ c ≤ (if c > m then c else m) := by split <;> omega
    refine ⟨?_, ?_, ?_⟩
    · exact Nat.le_trans hb.1 i1
    · intro x hx
      rcases List.mem_cons.mp hx with hx | hx
      · rw [hx]; exact Nat.le_trans hb.2 i1
      · exact i2 x hx
    · rcases i3 with i3 | i3
      · by_cases hgt : c > m
        · rw [if_pos hgt] at i3 ⊢
          exact Or.inr (by rw [i3]; exact List.mem_cons_self)
        · rw [if_neg hgt] at i3 ⊢
          exact Or.inl i3
      · exact Or.inr (List.mem_cons_of_mem _ i3)

theorem le_maxCount (cs : List Nat) : ∀ c ∈ cs, c ≤ maxCount cs := (foldl_max cs 0).2.1

theorem maxCount_mem {cs : List Nat} (h : cs ≠ []) : maxCount cs ∈ cs := by
  rcases (foldl_max cs 0).2.2 with h0 | h0
  · cases cs with
    | nil => exact absurd rfl h
    | cons c cs =>
      have : c ≤ maxCount (c :: cs) := le_maxCount _ c List.mem_cons_self
      unfold maxCount at this ⊢
      rw [h0] at this ⊢
      have : c = 0 := by omega
      rw [this]; exact List.mem_cons_self
  · exact h0

/-- From the first list with another count on, nothing is kept. -/
theorem keepInstalled_stuck (counts : List Nat) (m i : Nat) (h : counts.getD i 0 ≠ m) :
    ∀ ls : List (List Pkg), keepInstalled counts m i ls = [] := by
  intro ls
  induction ls with
  | nil => rfl
  | cons l ls ih => simp only [keepInstalled]; rw [if_pos h]; exact ih

theorem keepInstalled_takeWhile (f : List Pkg → Nat) (m : Nat) : ∀ (ls pre : List (List Pkg)),
    keepInstalled ((pre ++ ls).map f) m pre.length ls = ls.takeWhile fun l => f l = m := by
  intro ls
  induction ls with
  | nil => intro pre; rfl
  | cons l ls ih =>
    intro pre
    have hget : ((pre ++ l :: ls).map f).getD pre.length 0 = f l := by simp
    simp only [keepInstalled]
    by_cases h : f l = m
    · rw [hget, if_neg (by simpa using h)]
      have := ih (pre ++ [l])
      simp only [List.append_assoc, List.singleton_append, List.length_append, List.length_singleton] at this
      rw [this, List.takeWhile_cons_of_pos (by simpa using h)]
    · rw [hget, if_pos h, keepInstalled_stuck _ _ _ (by rw [hget]; exact h), List.takeWhile_cons_of_neg (by simpa using h)]

end ELC.Package
