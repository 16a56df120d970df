import Verif.Model.KwOrder
import Verif.Spec.KwOrder

/-!
# Lemmas on keyword ordering
-/

namespace Jschon

open Spec

theorem takeReady_perm {α : Type} : ∀ (l : List (α × List String)) a rest,
    takeReady l = some (a, rest) → l.Perm ((a, []) :: rest)
  | [], _, _, h => by simp [takeReady] at h
  | (b, []) :: r, a, rest, h => by
    simp only [takeReady, Option.some.injEq, Prod.mk.injEq] at h
    rw [← h.1, ← h.2]
  | (b, d :: ds) :: r, a, rest, h => by
    simp only [takeReady, Option.map_eq_some_iff] at h
    obtain ⟨⟨a', r'⟩, h1, h2⟩ := h
    simp only [Prod.mk.injEq] at h2
    obtain ⟨rfl, rfl⟩ := h2
    exact ((takeReady_perm r a' r' h1).cons _).trans (List.Perm.swap _ _ _)

theorem takeReady_isSome {α : Type} : ∀ (l : List (α × List String)) e, e ∈ l → e.2 = [] →
    ∃ p, takeReady l = some p
  | [], _, h, _ => by simp at h
  | (b, []) :: r, e, h, he => ⟨_, rfl⟩
  | (b, d :: ds) :: r, e, h, he => by
    have : e ∈ r := by
      rcases List.mem_cons.1 h with rfl | h
      · simp at he
      · exact h
    obtain ⟨p, hp⟩ := takeReady_isSome r e this he
    exact ⟨_, by simp only [takeReady, hp, Option.map_some]; rfl⟩

/-- The entries after one has been yielded. -/
def strike {α : Type} (k : String) (l : List (α × List String)) : List (α × List String) :=
  l.map (fun p => (p.1, p.2.erase k))

theorem strike_fst {α : Type} (k : String) (l : List (α × List String)) :
    (strike k l).map Prod.fst = l.map Prod.fst := by
  simp [strike, List.map_map, Function.comp_def]

theorem resolveLoop_perm {α : Type} (key : α → String) : ∀ n (l : List (α × List String)) out,
    resolveLoop key n l = some out → out.Perm (l.map Prod.fst)
  | _, [], out, h => by
    have : out = [] := by cases ‹Nat› <;> simpa [resolveLoop] using h.symm
    simp [this]
  | 0, _ :: _, out, h => by simp [resolveLoop] at h
  | n + 1, e :: es, out, h => by
    simp only [resolveLoop] at h
    cases ht : takeReady (e :: es) with
    | none => simp [ht] at h
    | some p =>
      obtain ⟨a, rest⟩ := p
      simp only [ht, Option.map_eq_some_iff] at h
      obtain ⟨out', h1, rfl⟩ := h
      have hp := (takeReady_perm _ _ _ ht).map Prod.fst
      have := resolveLoop_perm key n _ _ h1
      have h2 : (rest.map (fun p => (p.1, p.2.erase (key a)))).map Prod.fst = rest.map Prod.fst :=
        strike_fst (key a) rest
      rw [h2] at this
      exact (this.cons a).trans hp.symm

theorem eq_of_key_eq {α : Type} (key : α → String) : ∀ (l : List α), (l.map key).Nodup →
    ∀ a ∈ l, ∀ b ∈ l, key a = key b → a = b
  | [], _, a, ha, _, _, _ => by simp at ha
  | x :: xs, hn, a, ha, b, hb, h => by
    simp only [List.map_cons, List.nodup_cons] at hn
    rcases List.mem_cons.1 ha with rfl | ha
    · rcases List.mem_cons.1 hb with rfl | hb
      · rfl
      · exact absurd (List.mem_map.2 ⟨b, hb, h.symm⟩) hn.1
    · rcases List.mem_cons.1 hb with rfl | hb
      · exact absurd (List.mem_map.2 ⟨a, (by assumption), h⟩) hn.1
      · exact eq_of_key_eq key xs hn.2 a ha b hb h

theorem resolveLoop_order {α : Type} (key : α → String) : ∀ n (l : List (α × List String)) out,
    (l.map (fun p => key p.1)).Nodup →
    resolveLoop key n l = some out →
    ∀ pre a post, out = pre ++ a :: post → ∀ ds, (a, ds) ∈ l →
      ∀ b, b ∈ l.map Prod.fst → key b ∈ ds → b ∈ pre
  | _, [], _, _, _, _, _, _, _, _, h, _, _, _ => by simp at h
  | 0, _ :: _, out, _, h, _, _, _, _, _, _, _, _, _ => by simp [resolveLoop] at h
  | n + 1, e :: es, out, hn, h, pre, a, post, hout, ds, ha, b, hb, hk => by
    simp only [resolveLoop] at h
    cases ht : takeReady (e :: es) with
    | none => simp [ht] at h
    | some p =>
      obtain ⟨a0, rest⟩ := p
      simp only [ht, Option.map_eq_some_iff] at h
      obtain ⟨out', h1, rfl⟩ := h
      have hp := takeReady_perm _ _ _ ht
      have hn' : (((a0, ([] : List String)) :: rest).map (fun p => key p.1)).Nodup :=
        (hp.map _).nodup_iff.1 hn
      simp only [List.map_cons, List.nodup_cons] at hn'
      have ha' := hp.mem_iff.1 ha
      have hb' : b = a0 ∨ b ∈ rest.map Prod.fst := by
        have := (hp.map Prod.fst).mem_iff.1 hb
        simpa using this
      have hane : ds ≠ [] := by rintro rfl; simp at hk
      have hadr : (a, ds) ∈ rest := by
        rcases List.mem_cons.1 ha' with h | h
        · simp only [Prod.mk.injEq] at h; exact absurd h.2 hane
        · exact h
      have haa0 : key a ≠ key a0 := by
        intro h
        exact hn'.1 (List.mem_map.2 ⟨_, hadr, h⟩)
      cases pre with
      | nil =>
        simp only [List.nil_append, List.cons.injEq] at hout
        exact absurd (by rw [hout.1]) haa0
      | cons x pre' =>
        simp only [List.cons_append, List.cons.injEq] at hout
        obtain ⟨rfl, hout⟩ := hout
        rcases hb' with rfl | hb'
        · exact List.mem_cons_self
        · refine List.mem_cons_of_mem _ ?_
          have hkb : key b ≠ key a0 := by
            intro h
            obtain ⟨⟨b', ds'⟩, hm, rfl⟩ := List.mem_map.1 hb'
            exact hn'.1 (List.mem_map.2 ⟨_, hm, h⟩)
          refine resolveLoop_order key n _ out' ?_ h1 pre' a post hout (ds.erase (key a0)) ?_ b ?_ ?_
          · rw [List.map_map]
            exact hn'.2
          · exact List.mem_map.2 ⟨_, hadr, rfl⟩
          · have := strike_fst (key a0) rest
            unfold strike at this
            rw [this]; exact hb'
          · exact (List.mem_erase_of_ne hkb).2 hk

theorem exists_min {α : Type} (f : α → Nat) : ∀ (l : List α), l ≠ [] → ∃ a ∈ l, ∀ b ∈ l, f a ≤ f b
  | [], h => absurd rfl h
  | [a], _ => ⟨a, by simp, by simp⟩
  | a :: b :: r, _ => by
    obtain ⟨m, hm, hmin⟩ := exists_min f (b :: r) (by simp)
    by_cases hc : f a ≤ f m
    · refine ⟨a, by simp, ?_⟩
      intro c hc'
      rcases List.mem_cons.1 hc' with rfl | h
      · exact Nat.le_refl _
      · exact Nat.le_trans hc (hmin c h)
    · refine ⟨m, List.mem_cons_of_mem _ hm, ?_⟩
      intro c hc'
      rcases List.mem_cons.1 hc' with rfl | h
      · omega
      · exact hmin c h

theorem resolveLoop_isSome {α : Type} (key : α → String) (rank : String → Nat) :
    ∀ n (l : List (α × List String)), l.length ≤ n →
    (∀ p ∈ l, p.2.Nodup) →
    (∀ p ∈ l, ∀ d ∈ p.2, rank d < rank (key p.1) ∧ d ∈ l.map (fun p => key p.1)) →
    ∃ out, resolveLoop key n l = some out
  | n, [], _, _, _ => ⟨[], by cases n <;> rfl⟩
  | 0, _ :: _, h, _, _ => by simp at h
  | n + 1, e :: es, hl, hnd, hr => by
    obtain ⟨m, hm, hmin⟩ := exists_min (fun p : α × List String => rank (key p.1)) (e :: es) (by simp)
    have hm2 : m.2 = [] := by
      cases hd : m.2 with
      | nil => rfl
      | cons d ds =>
        have := hr m hm d (by rw [hd]; simp)
        obtain ⟨q, hq, hqd⟩ := List.mem_map.1 this.2
        have h1 := hmin q hq
        rw [show rank (key q.1) = rank d from congrArg rank hqd] at h1
        omega
    obtain ⟨⟨a, rest⟩, ht⟩ := takeReady_isSome _ m hm hm2
    have hp := takeReady_perm _ _ _ ht
    have hlen : rest.length ≤ n := by
      have := hp.length_eq
      simp at this hl
      omega
    have ih := resolveLoop_isSome key rank n (rest.map (fun p => (p.1, p.2.erase (key a))))
      (by simpa using hlen)
      (by
        intro p hp'
        obtain ⟨q, hq, rfl⟩ := List.mem_map.1 hp'
        exact (hnd q (hp.mem_iff.2 (List.mem_cons_of_mem _ hq))).erase _)
      (by
        intro p hp' d hd
        obtain ⟨q, hq, rfl⟩ := List.mem_map.1 hp'
        have hqm := hp.mem_iff.2 (List.mem_cons_of_mem _ hq)
        have hdm := (List.Nodup.mem_erase_iff (hnd q hqm)).1 hd
        refine ⟨(hr q hqm d hdm.2).1, ?_⟩
        have h2 := (hr q hqm d hdm.2).2
        have h3 := (hp.map (fun p => key p.1)).mem_iff.1 h2
        simp only [List.map_cons, List.mem_cons] at h3
        rcases h3 with h3 | h3
        · exact absurd h3 hdm.1
        · rw [List.map_map]; exact h3)
    obtain ⟨out, hout⟩ := ih
    exact ⟨a :: out, by simp only [resolveLoop, ht, hout, Option.map_some]⟩

/-- A rank for the keyword names of the shipped vocabularies. -/
def kwRank (k : String) : Nat :=
  if k = "then" ∨ k = "else" ∨ k = "items" ∨ k = "maxContains" ∨ k = "additionalProperties" ∨
     k = "contentSchema" then 1
  else if k = "additionalItems" ∨ k = "minContains" then 2
  else if k = "unevaluatedItems" ∨ k = "unevaluatedProperties" then 3
  else 0

theorem kwRank_lt (legacy : Bool) (kw : Kw) : ∀ d ∈ kw.dependsOn legacy, kwRank d < kwRank kw.key := by
  cases kw <;> cases legacy <;> simp only [Kw.dependsOn, Kw.key] <;> first | decide | (intro d hd; cases hd)

theorem dependsOn_nodup (legacy : Bool) (kw : Kw) : (kw.dependsOn legacy).Nodup := by
  cases kw <;> cases legacy <;> simp only [Kw.dependsOn] <;> decide

theorem resolveDependencies_spec {α : Type} (key : α → String) (deps : α → List String) (kws out : List α)
    (hn : (kws.map key).Nodup) (h : resolveDependencies key deps kws = some out) :
    out.Perm kws ∧ DepsFirst key deps out := by
  unfold resolveDependencies at h
  have hp := resolveLoop_perm key _ _ _ h
  have hm : (kws.map (fun a => (a, (deps a).filter (fun d => (kws.map key).contains d)))).map Prod.fst
      = kws := by simp [List.map_map, Function.comp_def]
  rw [hm] at hp
  refine ⟨hp, ?_⟩
  intro pre a post hout b hb hk
  have ha : a ∈ kws := hp.mem_iff.1 (by rw [hout]; simp)
  have hb' : b ∈ kws := hp.mem_iff.1 hb
  refine resolveLoop_order key _ _ out ?_ h pre a post hout
    ((deps a).filter (fun d => (kws.map key).contains d)) ?_ b ?_ ?_
  · simpa [List.map_map, Function.comp_def] using hn
  · exact List.mem_map.2 ⟨a, ha, rfl⟩
  · rw [hm]; exact hb'
  · simp only [List.mem_filter, List.contains_iff_mem]
    exact ⟨hk, List.mem_map.2 ⟨b, hb', rfl⟩⟩

theorem resolveDependencies_isSome {α : Type} (key : α → String) (deps : α → List String)
    (kws : List α) (hd : ∀ a ∈ kws, (deps a).Nodup) (hr : Acyclic key deps kws) :
    ∃ out, resolveDependencies key deps kws = some out := by
  obtain ⟨rank, hr⟩ := hr
  unfold resolveDependencies
  refine resolveLoop_isSome key rank _ _ (by simp) ?_ ?_
  · intro p hp
    obtain ⟨a, ha, rfl⟩ := List.mem_map.1 hp
    exact (hd a ha).filter _
  · intro p hp d hdm
    obtain ⟨a, ha, rfl⟩ := List.mem_map.1 hp
    simp only [List.mem_filter, List.contains_iff_mem] at hdm
    refine ⟨hr a ha d hdm.1, ?_⟩
    simpa [List.map_map, Function.comp_def] using hdm.2

end Jschon
