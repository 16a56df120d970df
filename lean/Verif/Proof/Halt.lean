import Verif.Spec.Rank
import Verif.Proof.DynScope
import Verif.Proof.EvalItems

/-!
# Termination of evaluation
-/

namespace Jschon

open Spec

/-- `rec` has an outcome for the schema and value, in any scope, at any path, with any result. -/
def Halts (rec : Rec) (t : SRef) (x : Value) : Prop := ∀ sc p r, ∃ r', rec sc t ⟨p, x⟩ r = some r'

/-- `x` is an item, a member, or a name of a member of `v`. -/
def Part (x v : Value) : Prop :=
  x ∈ elems v ∨ (∃ n, (n, x) ∈ members v) ∨ ∃ n y, (n, y) ∈ members v ∧ x = .str n

theorem sizeOf_part {x v : Value} (h : Part x v) : sizeOf x < sizeOf v := by
  rcases h with h | ⟨n, h⟩ | ⟨n, y, h, rfl⟩
  · cases v with
    | arr xs =>
      have := List.sizeOf_lt_of_mem (as := xs) h
      simp only [Value.arr.sizeOf_spec]; omega
    | _ => cases h
  · cases v with
    | obj kvs =>
      have := List.sizeOf_lt_of_mem (as := kvs) h
      simp only [Value.obj.sizeOf_spec, Prod.mk.sizeOf_spec] at *; omega
    | _ => cases h
  · cases v with
    | obj kvs =>
      have := List.sizeOf_lt_of_mem (as := kvs) h
      simp only [Value.obj.sizeOf_spec, Value.str.sizeOf_spec, Prod.mk.sizeOf_spec] at *; omega
    | _ => cases h

section
variable {rec : Rec} {sc : List SRef}

theorem Halts.call {t : SRef} {i : Inst} (h : Halts rec t i.value) (sc : List SRef) (r : RNode) :
    ∃ r', rec sc t i r = some r' := h sc i.path r

theorem subLoop_halts : ∀ {jobs : List (String × SRef × Inst)} {c : RNode},
    (∀ j ∈ jobs, Halts rec j.2.1 j.2.2.value) → ∃ p, subLoop rec sc jobs c = some p
  | [], c, _ => ⟨_, rfl⟩
  | (key, t, i) :: jobs, c, h => by
    obtain ⟨r', hr⟩ := (h _ List.mem_cons_self).call (c.schema :: sc) (c.fresh i key c.schema)
    simp only at hr
    simp only [subLoop, hr]
    obtain ⟨p, hp⟩ := subLoop_halts (jobs := jobs)
      (c := if r'.info.discard then
        ((c.setChild (key, i.path) (c.fresh i key c.schema)).setChild (key, i.path) r').delChild (key, i.path)
        else (c.setChild (key, i.path) (c.fresh i key c.schema)).setChild (key, i.path) r')
      (fun j hj => h j (List.mem_cons_of_mem _ hj))
    rw [hp]
    exact ⟨_, rfl⟩

theorem sharedLoop_halts {t : SRef} : ∀ {is : List Inst} {c : RNode},
    (∀ i ∈ is, Halts rec t i.value) → ∃ p, sharedLoop rec sc t is c = some p
  | [], c, _ => ⟨_, rfl⟩
  | i :: is, c, h => by
    obtain ⟨r', hr⟩ := (h _ List.mem_cons_self).call sc c
    simp only [sharedLoop, hr]
    obtain ⟨p, hp⟩ := sharedLoop_halts (is := is) (c := if r'.passed then r' else r'.pass_)
      (fun j hj => h j (List.mem_cons_of_mem _ hj))
    rw [hp]
    exact ⟨_, rfl⟩

theorem plainLoop_halts {t : SRef} : ∀ {is : List Inst} {c : RNode},
    (∀ i ∈ is, Halts rec t i.value) → ∃ p, plainLoop rec sc t is c = some p
  | [], c, _ => ⟨_, rfl⟩
  | i :: is, c, h => by
    obtain ⟨r', hr⟩ := (h _ List.mem_cons_self).call sc c
    simp only [plainLoop, hr]
    exact plainLoop_halts (fun j hj => h j (List.mem_cons_of_mem _ hj))

theorem indexJobs_mem {i : Inst} : ∀ {n : Nat} {ss : List SRef} {j : String × SRef × Inst},
    j ∈ indexJobs i n ss → j.2.1 ∈ ss ∧ j.2.2 = i
  | _, [], _, h => by cases h
  | n, t :: ts, j, h => by
    simp only [indexJobs, List.mem_cons] at h ⊢
    rcases h with rfl | h
    · exact ⟨.inl rfl, rfl⟩
    · exact ⟨.inr (indexJobs_mem h).1, (indexJobs_mem h).2⟩

theorem itemJobs_mem : ∀ {ss : List SRef} {is : List (Nat × Inst)} {j : String × SRef × Inst},
    j ∈ itemJobs ss is → j.2.1 ∈ ss ∧ ∃ k, (k, j.2.2) ∈ is
  | [], _, _, h => by simp [itemJobs] at h
  | _ :: _, [], _, h => by simp [itemJobs] at h
  | t :: ts, (n, i) :: is, j, h => by
    simp only [itemJobs, List.mem_cons] at h ⊢
    rcases h with rfl | h
    · exact ⟨.inl rfl, n, .inl rfl⟩
    · obtain ⟨h1, k, h2⟩ := itemJobs_mem h
      exact ⟨.inr h1, k, .inr h2⟩

end

theorem part_item {i : Inst} {p : Nat × Inst} (h : p ∈ i.items) : Part p.2.value i.value := by
  obtain ⟨x, hx, he⟩ := mem_items.1 h
  rw [he]; exact .inl (List.mem_of_getElem? hx)

theorem part_member {i : Inst} {p : String × Inst} (h : p ∈ i.members) : Part p.2.value i.value := by
  obtain ⟨x, hx, he⟩ := mem_members.1 h
  rw [he]; exact .inr (.inl ⟨_, hx⟩)

theorem part_name {i : Inst} {p : String × Inst} (h : p ∈ i.names) : Part p.2.value i.value := by
  rw [names_eq, List.mem_map] at h
  obtain ⟨kv, hkv, rfl⟩ := h
  exact .inr (.inr ⟨kv.1, kv.2, hkv, rfl⟩)

theorem dynLoop_cases {st : Store} {frag : String} : ∀ (sc : List SRef) (checked : List String) (found : SRef),
    dynLoop st frag sc checked found = found ∨ ∃ b, DynAnchor st b frag (dynLoop st frag sc checked found)
  | [], _, _ => .inl rfl
  | s :: sc, checked, found => by
    obtain ⟨h1, h2, h3, h4⟩ := dynLoop_cons (st := st) (frag := frag) (s := s) (sc := sc) (checked := checked)
      (found := found)
    cases hb : st.base s with
    | none => rw [h4 hb]; exact dynLoop_cases sc _ _
    | some b =>
      by_cases hc : b ∈ checked
      · rw [h3 b hb hc]; exact dynLoop_cases sc _ _
      · by_cases hd : ∃ t, DynAnchor st b frag t
        · obtain ⟨t, ht⟩ := hd
          rw [h1 b hb hc t ht]
          rcases dynLoop_cases sc (b :: checked) t with h | h
          · rw [h]; exact .inr ⟨b, ht⟩
          · exact .inr h
        · rw [h2 b hb hc (fun t ht => hd ⟨t, ht⟩)]; exact dynLoop_cases sc _ _

theorem dyn_may {st : Store} {sc : List SRef} {t : SRef} {frag : String} {dynamic : Bool} :
    MayInPlace st (.dynamicRef t frag dynamic) (if dynamic then dynLoop st frag sc [] t else t) := by
  cases dynamic with
  | false => exact .inl rfl
  | true =>
    rcases dynLoop_cases (st := st) (frag := frag) sc [] t with h | h
    · exact .inl h
    · exact .inr ⟨rfl, h⟩

theorem recr_may {st : Store} {sc : List SRef} {t : SRef} :
    MayInPlace st (.recursiveRef t) (if isRecursiveAnchor st t then recLoop st sc t else t) := by
  have h := recr_outermost (st := st) (sc := sc) (t := t)
  generalize (if isRecursiveAnchor st t then recLoop st sc t else t) = u at h
  cases h with
  | static _ => exact .inl rfl
  | found h1 _ h2 _ => exact .inr ⟨h1, h2⟩
  | none _ _ => exact .inl rfl

/-- A keyword has an outcome if the schemas it may apply have. -/
theorem evalKw_halts {st : Store} {env : Env} {rec : Rec} {sc : List SRef} {kw : Kw} {i : Inst}
    {parent c : RNode} (h1 : ∀ t, MayInPlace st kw t → Halts rec t i.value)
    (h2 : ∀ t x, Part x i.value → Halts rec t x)
    (h3 : ∀ t b x, st.obj t = .bool b → Halts rec t x) :
    ∃ p, evalKw st env rec sc kw i parent c = some p := by
  have shared : ∀ {t : SRef} {is : List Inst} {c : RNode}, (∀ j ∈ is, Part j.value i.value) →
      ∃ p, sharedLoop rec sc t is c = some p :=
    fun h => sharedLoop_halts (fun j hj => h2 _ _ (h j hj))
  have items : ∀ {l : List (Nat × Inst)}, (∀ p ∈ l, p ∈ i.items) → ∀ j ∈ insts l, Part j.value i.value := by
    intro l hl j hj
    obtain ⟨p, hp, rfl⟩ := List.mem_map.1 hj
    exact part_item (hl p hp)
  have membs : ∀ {l : List (String × Inst)}, (∀ p ∈ l, p ∈ i.members) →
      ∀ j ∈ insts l, Part j.value i.value := by
    intro l hl j hj
    obtain ⟨p, hp, rfl⟩ := List.mem_map.1 hj
    exact part_member (hl p hp)
  have index : ∀ {ss : List SRef} {c : RNode}, (∀ t ∈ ss, Halts rec t i.value) →
      ∃ p, subLoop rec sc (indexJobs i 0 ss) c = some p := by
    intro ss c h
    refine subLoop_halts (fun j hj => ?_)
    obtain ⟨hm, he⟩ := indexJobs_mem hj
    rw [he]; exact h _ hm
  have itemj : ∀ {ss : List SRef} {c : RNode}, ∃ p, subLoop rec sc (itemJobs ss i.items) c = some p := by
    intro ss c
    refine subLoop_halts (fun j hj => ?_)
    obtain ⟨_, k, hk⟩ := itemJobs_mem hj
    exact h2 _ _ (part_item (p := (k, j.2.2)) hk)
  cases kw
  case allOf ss => obtain ⟨p, hp⟩ := index (ss := ss) (c := c) h1; simp only [evalKw, hp]; exact ⟨_, rfl⟩
  case anyOf ss => obtain ⟨p, hp⟩ := index (ss := ss) (c := c) h1; simp only [evalKw, hp]; exact ⟨_, rfl⟩
  case oneOf ss => obtain ⟨p, hp⟩ := index (ss := ss) (c := c) h1; simp only [evalKw, hp]; exact ⟨_, rfl⟩
  case not_ t => obtain ⟨p, hp⟩ := (h1 t rfl).call sc c; simp only [evalKw, hp]; exact ⟨_, rfl⟩
  case if_ t => obtain ⟨p, hp⟩ := (h1 t rfl).call sc c; simp only [evalKw, hp]; exact ⟨_, rfl⟩
  case then_ t =>
    obtain ⟨p, hp⟩ := (h1 t rfl).call sc c
    simp only [evalKw, hp]
    split <;> split <;> exact ⟨_, rfl⟩
  case else_ t =>
    obtain ⟨p, hp⟩ := (h1 t rfl).call sc c
    simp only [evalKw, hp]
    split <;> split <;> exact ⟨_, rfl⟩
  case dependentSchemas ps =>
    obtain ⟨p, hp⟩ := subLoop_halts (rec := rec) (sc := sc)
      (jobs := (ps.filter (fun p => i.has p.1)).map (fun p => (p.1, p.2, i))) (c := c) (by
        intro j hj
        obtain ⟨p, hp, rfl⟩ := List.mem_map.1 hj
        exact h1 _ ⟨p.1, (List.mem_filter.1 hp).1⟩)
    simp only [evalKw, hp]; exact ⟨_, rfl⟩
  case prefixItems ss => obtain ⟨p, hp⟩ := itemj (ss := ss) (c := c); simp only [evalKw, hp]; exact ⟨_, rfl⟩
  case items t =>
    obtain ⟨p, hp⟩ := shared (t := t) (c := c)
      (items (l := i.items.drop (prefixStart st parent i)) (fun _ h => List.mem_of_mem_drop h))
    simp only [evalKw, hp]; exact ⟨_, rfl⟩
  case unevaluatedItems t =>
    simp only [evalKw, evalUnevaluatedItems]
    split
    · exact ⟨_, rfl⟩
    split
    · exact ⟨_, rfl⟩
    split
    · exact ⟨_, rfl⟩
    obtain ⟨p, hp⟩ := shared (t := t) (c := c) (items (l := i.items.filter _) (fun _ h => (List.mem_filter.1 h).1))
    rw [hp]; exact ⟨_, rfl⟩
  case unevaluatedItems9 t =>
    simp only [evalKw, evalUnevaluatedItems9]
    split
    · exact ⟨_, rfl⟩
    split
    · exact ⟨_, rfl⟩
    split
    · exact ⟨_, rfl⟩
    obtain ⟨p, hp⟩ := shared (t := t) (c := c) (items (l := i.items.filter _) (fun _ h => (List.mem_filter.1 h).1))
    rw [hp]; exact ⟨_, rfl⟩
  case contains t =>
    obtain ⟨p, hp⟩ := shared (t := t) (c := c) (items (l := i.items) (fun _ h => h))
    simp only [evalKw, hp]; exact ⟨_, rfl⟩
  case properties ps =>
    obtain ⟨p, hp⟩ := subLoop_halts (rec := rec) (sc := sc) (jobs := propJobs ps i.members) (c := c) (by
        intro j hj
        obtain ⟨m, hm, he⟩ := List.mem_filterMap.1 hj
        obtain ⟨t, _, rfl⟩ := Option.map_eq_some_iff.1 he
        exact h2 _ _ (part_member hm))
    simp only [evalKw, hp]; exact ⟨_, rfl⟩
  case patternProperties ps =>
    obtain ⟨p, hp⟩ := subLoop_halts (rec := rec) (sc := sc)
      (jobs := (patternJobs env ps i.members).map Prod.snd) (c := c) (by
        intro j hj
        obtain ⟨q, hq, rfl⟩ := List.mem_map.1 hj
        obtain ⟨m, hm, he⟩ := List.mem_flatMap.1 hq
        obtain ⟨p, _, rfl⟩ := List.mem_map.1 he
        exact h2 _ _ (part_member hm))
    simp only [evalKw, hp]; exact ⟨_, rfl⟩
  case additionalProperties t =>
    simp only [evalKw, evalAdditionalProperties]
    obtain ⟨p, hp⟩ := shared (t := t) (c := c)
      (membs (l := i.members.filter _) (fun _ h => (List.mem_filter.1 h).1))
    rw [hp]; exact ⟨_, rfl⟩
  case unevaluatedProperties t =>
    simp only [evalKw, evalUnevaluatedProperties]
    obtain ⟨p, hp⟩ := shared (t := t) (c := c)
      (membs (l := i.members.filter _) (fun _ h => (List.mem_filter.1 h).1))
    rw [hp]; exact ⟨_, rfl⟩
  case propertyNames t =>
    obtain ⟨p, hp⟩ := shared (t := t) (is := insts i.names) (c := c) (by
      intro j hj
      obtain ⟨p, hp, rfl⟩ := List.mem_map.1 hj
      exact part_name hp)
    simp only [evalKw, hp]; exact ⟨_, rfl⟩
  case items9 t =>
    simp only [evalKw]
    split
    · exact ⟨_, rfl⟩
    split
    · rename_i b hb
      obtain ⟨p, hp⟩ := (h3 t b i.value hb).call sc c
      rw [hp]; exact ⟨_, rfl⟩
    · obtain ⟨p, hp⟩ := plainLoop_halts (rec := rec) (sc := sc) (t := t) (is := insts i.items) (c := c)
        (fun j hj => h2 _ _ (items (l := i.items) (fun _ h => h) j hj))
      rw [hp]; exact ⟨_, rfl⟩
  case items9Array ss =>
    simp only [evalKw]
    split
    · exact ⟨_, rfl⟩
    obtain ⟨p, hp⟩ := itemj (ss := ss) (c := c); rw [hp]; exact ⟨_, rfl⟩
  case additionalItems t =>
    simp only [evalKw]
    split
    · obtain ⟨p, hp⟩ := shared (t := t) (c := c) (items (l := i.items.filter _) (fun _ h => (List.mem_filter.1 h).1))
      rw [hp]; exact ⟨_, rfl⟩
    · exact ⟨_, rfl⟩
  case ref t => obtain ⟨p, hp⟩ := (h1 t rfl).call sc c; simp only [evalKw, hp]; exact ⟨_, rfl⟩
  case dynamicRef t frag dynamic =>
    obtain ⟨p, hp⟩ := (h1 _ (dyn_may (sc := sc))).call sc c
    simp only [evalKw, hp]; exact ⟨_, rfl⟩
  case recursiveRef t =>
    obtain ⟨p, hp⟩ := (h1 _ (recr_may (sc := sc))).call sc c
    simp only [evalKw, hp]; exact ⟨_, rfl⟩
  all_goals exact ⟨_, rfl⟩

theorem kwLoop_halts {st : Store} {env : Env} {rec : Rec} {sc : List SRef} {s : SRef} {i : Inst} :
    ∀ {kws : List Kw} {r : RNode},
      (∀ kw ∈ kws, ∀ sc parent c, ∃ p, evalKw st env rec sc kw i parent c = some p) →
      ∃ r', kwLoop st env rec sc s i kws r = some r'
  | [], r, _ => ⟨r, rfl⟩
  | kw :: kws, r, h => by
    simp only [kwLoop]
    have ih := fun r => kwLoop_halts (st := st) (env := env) (rec := rec) (sc := sc) (s := s) (i := i)
      (kws := kws) (r := r) (fun kw hkw => h kw (List.mem_cons_of_mem _ hkw))
    split
    · obtain ⟨p, hp⟩ := h kw List.mem_cons_self (s :: sc)
        (r.setChild (kw.key, i.path) (r.fresh i kw.key s)) (r.fresh i kw.key s)
      simp only [withSub, hp]
      exact ih _
    · exact ih _

theorem evalBody_halts {st : Store} {env : Env} {rec : Rec} {s : SRef} {v : Value}
    (h : ∀ kws, st.obj s = .obj kws → ∀ kw ∈ kws, ∀ sc p parent c,
      ∃ q, evalKw st env rec sc kw ⟨p, v⟩ parent c = some q) (sc p r) :
    ∃ r', evalBody st env rec sc s ⟨p, v⟩ r = some r' := by
  simp only [evalBody]
  split
  · exact ⟨_, rfl⟩
  · exact ⟨_, rfl⟩
  · rename_i kws hk
    obtain ⟨r', hr⟩ := kwLoop_halts (st := st) (env := env) (rec := rec) (sc := sc) (s := s) (i := ⟨p, v⟩)
      (kws := kws) (r := r) (fun kw hkw sc' => h kws hk kw hkw sc' p)
    rw [hr]; exact ⟨_, rfl⟩

/-- Evaluation has an outcome: its nesting is bounded by the size of the value times the number of
ranks. -/
theorem evalSchema_halts {st : Store} {env : Env} {rank : SRef → Nat} {bound : Nat}
    (hr : Ranked st rank bound) : ∀ (n : Nat) (s : SRef) (v : Value),
      sizeOf v * bound + rank s < n → Halts (evalSchema st env n) s v
  | 0, _, _, h => by omega
  | n + 1, s, v, h => by
    intro sc p r
    simp only [evalSchema]
    refine evalBody_halts (fun kws hk kw hkw sc p parent c => ?_) sc p r
    refine evalKw_halts ?_ ?_ ?_
    · intro t ht
      have := hr.decreases s kws kw t hk hkw ht
      exact evalSchema_halts hr n t v (by omega)
    · intro t x hx
      have h1 := sizeOf_part hx
      have h2 := hr.lt t
      have h3 : (sizeOf x + 1) * bound ≤ sizeOf v * bound := Nat.mul_le_mul_right _ h1
      rw [Nat.add_mul, Nat.one_mul] at h3
      exact evalSchema_halts hr n t x (by omega)
    · intro t b x hb
      have hv : 0 < sizeOf v * bound := by
        have h1 : 0 < sizeOf v := by cases v <;> simp <;> omega
        have h2 := Nat.zero_lt_of_lt (hr.lt s)
        exact Nat.mul_pos h1 h2
      cases n with
      | zero => omega
      | succ n => intro sc p r; simp only [evalSchema, evalBody, hb]; cases b <;> exact ⟨_, rfl⟩

end Jschon
