import Verif.Spec.Cut
import Verif.Proof.SchemaEdit
import Verif.Proof.NoCache

/-!
# Worlds after deletion of subschemas
-/

namespace Jschon
open Spec

theorem delKey_edit {h : JHeap} (hi : WInv h) {r : Ref} (hr : r < h.next) {k : String}
    {ms : List (String × Ref)} (hd : h.data r = .obj ms) (hk : k ∈ dkeys ms) :
    EditW h (delKey h r k).1 r (.obj (derase k ms)) := by
  obtain ⟨c, hc⟩ := Option.isSome_iff_exists.1 (dlookup_isSome.2 hk)
  simp only [delKey, hd, hc]
  have hold : ∀ x ∈ ms.map Prod.snd, r < x ∧ x < h.next ∧ h.parent x = some r :=
    fun x hx => hi.ord.kid r x (by rw [hd]; exact hx)
  exact (assign_spec hi.ord hr (d := .obj (derase k ms))
    (by
      intro x hx
      simp only [JData.kids, List.mem_map] at hx
      obtain ⟨m, hx, rfl⟩ := hx
      exact hold m.2 (List.mem_map_of_mem (f := Prod.snd) (derase_sublist.subset hx)))
    (by
      have := hi.ord.nodup r; rw [hd] at this
      exact this.sublist (derase_sublist.map _))
    (by intro ms' h'; cases h'; exact (hi.nodup r ms hd).sublist (derase_sublist.map _))
    (by intro l hl; cases hl)
    (by intro ms' h' k' x hx; cases h'; exact hi.okey r ms hd k' x (derase_sublist.subset hx))).1

theorem delIdx_edit {h : JHeap} (hi : WInv h) {r : Ref} (hr : r < h.next) {i : Int} {cs : List Ref}
    (hd : h.data r = .arr cs) {n : Nat} (hn : pyPos cs.length i = some n) :
    EditW h (delIdx h r i).1 r (.arr (cs.eraseIdx n)) := by
  have hold : ∀ x ∈ cs, r < x ∧ x < h.next ∧ h.parent x = some r :=
    fun x hx => hi.ord.kid r x (by rw [hd]; exact hx)
  have hnd : cs.Nodup := by have := hi.ord.nodup r; rw [hd] at this; exact this
  have hsub : List.Sublist (cs.eraseIdx n) cs := List.eraseIdx_sublist cs n
  obtain ⟨e1, e2, e3⟩ := assign_spec hi.ord hr (d := .arr (cs.eraseIdx n))
    (fun x hx => hold x (hsub.subset hx)) (hnd.sublist hsub) (by intro ms h; cases h)
    (by
      intro l hl x hx
      cases hl
      exact hi.kint r cs hd x (hsub.subset hx))
  simp only [delIdx, hd, hn]
  obtain ⟨s1, s2⟩ := shiftKeys_spec (e1.ord hi.ord) (-1)
    ((cs.eraseIdx n).drop (sliceBound (cs.eraseIdx n).length i))
    ((hnd.sublist hsub).sublist (List.drop_sublist _ _))
    (by
      intro x hx
      have hx' := hsub.subset (List.mem_of_mem_drop hx)
      refine ⟨by rw [e1.next]; exact (hold x hx').2.1, ?_⟩
      rw [e2]; exact hi.kint r cs hd x hx')
  exact e1.shift s2 (fun c hc => List.mem_of_mem_drop hc)

/-- The data of an array or object after a deletion. -/
def Spec.Cut.data (c : Cut) : JData → JData
  | .arr cs => .arr (c.items cs)
  | .obj ms => .obj (c.members ms)
  | d => d

theorem Spec.Cut.items_none {i : Int} {cs : List Nat} (h : pyPos cs.length i = none) : (Cut.index i).items cs = cs := by
  simp only [Cut.items]
  unfold pyPos at h
  split
  · rename_i hi
    rw [if_pos hi] at h
    split at h
    · cases h
    · exact List.eraseIdx_of_length_le (by omega)
  · rename_i hi
    rw [if_neg hi] at h
    split at h
    · cases h
    · rw [if_neg ‹_›]

theorem Spec.Cut.items_some {i : Int} {cs : List Nat} {n : Nat} (h : pyPos cs.length i = some n) :
    (Cut.index i).items cs = cs.eraseIdx n := by
  simp only [Cut.items]
  unfold pyPos at h
  split
  · rename_i hi
    rw [if_pos hi] at h
    split at h
    · cases h; rfl
    · cases h
  · rename_i hi
    rw [if_neg hi] at h
    split at h
    · cases h; rw [if_pos ‹_›]
    · cases h

theorem Spec.Cut.data_kids (c : Cut) (d : JData) : ∀ x ∈ (c.data d).kids, x ∈ d.kids := by
  intro x hx
  cases d with
  | arr cs =>
    simp only [Cut.data, JData.kids] at hx ⊢
    cases c with
    | name k => exact hx
    | index i =>
      simp only [Cut.items] at hx
      split at hx
      · exact (List.eraseIdx_sublist _ _).subset hx
      · split at hx
        · exact (List.eraseIdx_sublist _ _).subset hx
        · exact hx
  | obj ms =>
    simp only [Cut.data, JData.kids] at hx ⊢
    cases c with
    | name k =>
      simp only [Cut.members] at hx
      exact (List.filter_sublist.map Prod.snd).subset hx
    | index i => exact hx
  | _ => exact hx

/-- A deletion changes the data of the instance, and nothing else but keys and caches. -/
theorem cut_step {h : JHeap} (hi : WInv h) {r : Nat} (hr : r < h.next) (c : Cut) :
    WInv ((c.op r).step h) ∧ ((c.op r).step h).next = h.next ∧
    (∀ x, ((c.op r).step h).parent x = h.parent x) ∧
    (∀ x, ((c.op r).step h).data x = if x = r then c.data (h.data r) else h.data x) := by
  have same : ∀ {h' : JHeap}, h' = h → c.data (h.data r) = h.data r → WInv h' ∧ h'.next = h.next ∧
      (∀ x, h'.parent x = h.parent x) ∧ (∀ x, h'.data x = if x = r then c.data (h.data r) else h.data x) := by
    rintro _ rfl e
    refine ⟨hi, rfl, fun _ => rfl, fun x => ?_⟩
    split
    · rename_i hx; subst hx; exact e.symm
    · rfl
  have edit : ∀ {h' d}, EditW h h' r d → c.data (h.data r) = d → WInv h' ∧ h'.next = h.next ∧
      (∀ x, h'.parent x = h.parent x) ∧ (∀ x, h'.data x = if x = r then c.data (h.data r) else h.data x) := by
    rintro h' _ e rfl
    exact ⟨e.winv hi, e.next, e.parent, e.data⟩
  cases c with
  | name k =>
    show WInv (delKey h r k).1 ∧ (delKey h r k).1.next = h.next ∧ (∀ x, (delKey h r k).1.parent x = h.parent x) ∧ ∀ x,
      (delKey h r k).1.data x = _
    by_cases hx : ∃ ms, h.data r = .obj ms ∧ k ∈ dkeys ms
    · obtain ⟨ms, hd, hk⟩ := hx
      refine edit (delKey_edit hi hr hd hk) ?_
      rw [hd, derase_filter k (hi.nodup r ms hd)]
      rfl
    · refine same (delKey_err fun ms hm hk => hx ⟨ms, hm, hk⟩).2 ?_
      cases hd : h.data r with
      | obj ms =>
        simp only [Cut.data, Cut.members, JData.obj.injEq]
        refine List.filter_eq_self.2 fun m hm => decide_eq_true fun e => hx ⟨ms, hd, ?_⟩
        rw [← e]; exact List.mem_map_of_mem hm
      | _ => rfl
  | index i =>
    show WInv (delIdx h r i).1 ∧ (delIdx h r i).1.next = h.next ∧ (∀ x, (delIdx h r i).1.parent x = h.parent x) ∧ ∀ x,
      (delIdx h r i).1.data x = _
    by_cases hx : ∃ cs n, h.data r = .arr cs ∧ pyPos cs.length i = some n
    · obtain ⟨cs, n, hd, hn⟩ := hx
      refine edit (delIdx_edit hi hr hd hn) ?_
      rw [hd]
      simp only [Cut.data, Cut.items_some hn]
    · have hno : ∀ cs, h.data r = .arr cs → pyPos cs.length i = none := fun cs hc => by
        cases hp : pyPos cs.length i with
        | none => rfl
        | some n => exact absurd ⟨cs, n, hc, hp⟩ hx
      refine same (delIdx_err hno).2 ?_
      cases hd : h.data r with
      | arr cs => simp only [Cut.data, Cut.items_none (hno cs hd)]
      | _ => rfl

theorem Spec.Cut.kw_key (c : Cut) (kw : Kw) : (c.kw kw).key = kw.key := by cases kw <;> rfl

theorem Spec.Cut.kw_static {c : Cut} {kw : Kw} {k : String} {v : Value} (h : c.kw kw = .static k v) : kw = .static k v := by
  cases kw <;> simp_all [Cut.kw]

/-- The forms of keywords whose subschemas are in an array or in an object. -/
theorem forms_cut [dia : Dialect] : ∀ p ∈ kwForms (dia := dia),
    (∀ f, p.2 = .many f → ∀ (c : Cut) cs, c.kw (f cs) = f (c.items cs)) ∧
    (∀ f, p.2 = .named f → ∀ (c : Cut) ms, c.kw (f ms) = f (c.members ms)) ∧
    (∀ f g, p.2 = .either f g → ∀ (c : Cut), (∀ cs, c.kw (g cs) = g (c.items cs)) ∧ ∀ x, c.kw (f x) = f x) := by
  intro p hp
  cases dia <;> simp only [kwForms, commonForms, List.mem_append, List.mem_cons, List.not_mem_nil, or_false] at hp
  all_goals
    rcases hp with hp | hp
    all_goals
      repeat' (first | (rcases hp with rfl | hp) | subst hp)
    all_goals
      refine ⟨fun f h => ?_, fun f h => ?_, fun f g h => ?_⟩
      all_goals first | (cases h; intro c cs; rfl) | (cases h; exact fun c => ⟨fun _ => rfl, fun _ => rfl⟩) | (simp [staticForm, annotForm, numForm, defsForm] at h)

/-- What constructions and edits of keywords maintain. -/
structure Orderly [Dialect] (w : World) : Prop where
  ok : WOk w
  cold : NoCache w
  kinds : KwsOf Kinded w

theorem Spec.KHistory.orderly [Dialect] {w : World} (h : KHistory w) : Orderly w := ⟨h.chistory.ok, h.chistory.cold, h.kinds⟩

/-- The state after deletions. -/
structure PrunedOk [Dialect] (E : CEnv) (cid : String) (w w' : World) (cuts : List (Nat × String × Cut)) : Prop where
  info : w'.info = w.info
  caches : w'.caches = w.caches
  next : w'.heap.next = w.heap.next
  parent : ∀ x, w'.heap.parent x = w.heap.parent x
  inv : WInv w'.heap
  sdata : ∀ x, w.isSchema x = true → w'.heap.data x = w.heap.data x
  kinds : ∀ x, (∃ b, w'.heap.data x = .bool b) → w'.heap.data x = w.heap.data x
  shapes : ∀ x kv, kv ∈ w.keywords x → KwOk w' kv.2.shape kv.2.json
  named : ∀ x kv kw, kv ∈ w.keywords x → w'.kwOf E kv = some kw → kw.key = kv.1
  obj : ∀ x, w'.schemaObj E x = (Store.cuts (w.store E cid) cuts).obj x

section
variable [dia : Dialect] {E : CEnv} {cid : String} {w w' : World} {cuts : List (Nat × String × Cut)}

theorem PrunedOk.keywords (t : PrunedOk E cid w w' cuts) (x : Nat) : w'.keywords x = w.keywords x := by
  simp only [World.keywords, t.info]

theorem PrunedOk.isSchema (t : PrunedOk E cid w w' cuts) (x : Nat) : w'.isSchema x = w.isSchema x := by
  simp only [World.isSchema, t.info]

theorem PrunedOk.nearest (t : PrunedOk E cid w w' cuts) {attr : SInfo → Option Uri} :
    ∀ n s, w'.nearest attr n s = w.nearest attr n s
  | 0, _ => rfl
  | n + 1, s => by simp only [World.nearest, t.info, t.parent, t.nearest n]

theorem keywords_info {w : World} {x : Nat} {kv : String × KwObj} (h : kv ∈ w.keywords x) :
    ∃ i, w.info x = some i ∧ kv ∈ i.keywords := by
  cases hi : w.info x with
  | none => simp [World.keywords, hi] at h
  | some i => exact ⟨i, rfl, by simpa only [World.keywords, hi, Option.map_some, Option.getD_some] using h⟩

theorem keywords_member {w : World} (ok : WOk w) {x : Nat} {kv : String × KwObj} (h : kv ∈ w.keywords x) :
    w.isSchema x = true ∧ ∃ ms, w.heap.data x = .obj ms ∧ (kv.1, kv.2.json) ∈ ms := by
  obtain ⟨i, hi, hm⟩ := keywords_info h
  have hs : w.isSchema x = true := by simp [World.isSchema, hi]
  refine ⟨hs, ?_⟩
  have hmm : (kv.1, kv.2.json) ∈ (w.heap.data x).members := by
    rw [← ok.kws x i hi]; exact List.mem_map_of_mem hm
  cases hd : w.heap.data x with
  | obj ms => rw [hd] at hmm; exact ⟨ms, rfl, hmm⟩
  | arr cs => exact absurd hd (ok.whole x cs hs)
  | _ => rw [hd] at hmm; cases hmm

theorem nodup_unique {α β : Type} {f : α → β} : ∀ {l : List α}, (l.map f).Nodup → ∀ {a b : α}, a ∈ l → b ∈ l →
    f a = f b → a = b
  | [], _, _, _, ha, _, _ => by cases ha
  | c :: l, h, a, b, ha, hb, e => by
    simp only [List.map_cons, List.nodup_cons, List.mem_map, not_exists, not_and] at h
    rcases List.mem_cons.1 ha with rfl | ha
    · rcases List.mem_cons.1 hb with rfl | hb
      · rfl
      · exact absurd e.symm (h.1 b hb)
    · rcases List.mem_cons.1 hb with rfl | hb
      · exact absurd e (h.1 a ‹a ∈ l›)
      · exact nodup_unique h.2 ha hb e

/-- Keyword objects of a schema with the same name, or with the same instance, are one. -/
theorem keywords_unique {w : World} (ok : WOk w) {x : Nat} {kv kv' : String × KwObj} (h : kv ∈ w.keywords x)
    (h' : kv' ∈ w.keywords x) (e : kv.1 = kv'.1 ∨ kv.2.json = kv'.2.json) : kv = kv' := by
  obtain ⟨hs, ms, hd, -⟩ := keywords_member ok h
  obtain ⟨i, hi, hm⟩ := keywords_info h
  obtain ⟨i', hi', hm'⟩ := keywords_info h'
  rw [hi] at hi'; cases hi'
  have hk := ok.kws x i hi
  rw [hd] at hk
  simp only [JData.members] at hk
  rcases e with e | e
  · refine nodup_unique (f := fun kv => kv.1) ?_ hm hm' e
    have := ok.keys.nodup x ms hd
    rw [← hk] at this
    simpa only [dkeys, kwMembers, List.map_map, Function.comp_def] using this
  · refine nodup_unique (f := fun kv => kv.2.json) ?_ hm hm' e
    have := ok.ord.nodup x
    rw [hd] at this
    simp only [JData.kids] at this
    rw [← hk] at this
    simpa only [kwMembers, List.map_map, Function.comp_def] using this

theorem PrunedOk.start (hw : Orderly w) : PrunedOk E cid w w [] := by
  have hc := hw
  refine ⟨rfl, rfl, rfl, fun _ => rfl, (hc.cold.inv hc.ok.ord hc.ok.keys).weak, fun _ _ => rfl, fun _ _ => rfl,
    fun x kv h => ?_, fun x kv kw h e => (kwOf_fits hc.ok.ord hc.ok.keys e).1, fun _ => rfl⟩
  obtain ⟨i, hi, hm⟩ := keywords_info h
  exact (hc.ok.shapes x i kv hi hm).1

theorem filterMap_map {α : Type} {f f' : α → Option Kw} {g : Kw → Kw} : ∀ {l : List α},
    (∀ a ∈ l, f' a = (f a).map g) → l.filterMap f' = (l.filterMap f).map g
  | [], _ => rfl
  | a :: l, h => by
    have ih := filterMap_map (l := l) fun b hb => h b (List.mem_cons_of_mem _ hb)
    simp only [List.filterMap_cons, h a (List.mem_cons_self ..), ih]
    cases f a <;> rfl

/-- One more deletion. -/
theorem PrunedOk.step (hw : Orderly w) (t : PrunedOk E cid w w' cuts) {s : Nat} {key : String} {o : KwObj} (c : Cut)
    (hm : (key, o) ∈ w'.keywords s) (hh : Holds o.shape) (hs : w'.isSchema o.json = false) :
    PrunedOk E cid w (w'.editJson (c.op o.json)) ((s, key, c) :: cuts) := by
  have ok := hw.ok
  rw [t.keywords] at hm
  rw [t.isSchema] at hs
  obtain ⟨hsc, ms0, hd0, hm0⟩ := keywords_member ok hm
  have hkid := ok.ord.kid s o.json (by rw [hd0]; exact List.mem_map.2 ⟨_, hm0, rfl⟩)
  obtain ⟨i1, i2, i3, i4⟩ := cut_step t.inv (t.next ▸ hkid.2.1) c
  have hne : ∀ {x}, w.isSchema x = true → x ≠ o.json := by
    rintro x hx rfl; rw [hs] at hx; cases hx
  have hdata : ∀ x, x ≠ o.json → (w'.editJson (c.op o.json)).heap.data x = w'.heap.data x := fun x hx =>
    (i4 x).trans (if_neg hx)
  have hjson : (w'.editJson (c.op o.json)).heap.data o.json = c.data (w'.heap.data o.json) :=
    (i4 _).trans (if_pos rfl)
  have hinfo : (w'.editJson (c.op o.json)).info = w.info := t.info
  have hkw : ∀ x, (w'.editJson (c.op o.json)).keywords x = w.keywords x := fun x => by
    simp only [World.keywords, hinfo]
  have hsch : ∀ x, (w'.editJson (c.op o.json)).isSchema x = w.isSchema x := fun x => by
    simp only [World.isSchema, hinfo]
  -- what is not a schema and holds none
  have hkids : ∀ x, ∀ y ∈ ((w'.editJson (c.op o.json)).heap.data x).kids, y ∈ (w'.heap.data x).kids := fun x y hy => by
    by_cases hx : x = o.json
    · subst hx; rw [hjson] at hy; exact c.data_kids _ y hy
    · rw [hdata x hx] at hy; exact hy
  have hdesc : ∀ {x y}, Desc (w'.editJson (c.op o.json)).heap x y → Desc w'.heap x y := fun {x y} h => by
    induction h with
    | refl => exact .refl
    | step hk _ ih => exact .step (hkids _ _ hk) ih
  have hnos : ∀ {j}, NoSchema w' j → NoSchema (w'.editJson (c.op o.json)) j := fun {j} h x hx =>
    (hsch x).trans ((t.isSchema x).symm.trans (h x (hdesc hx)))
  have hshapes : ∀ x kv, kv ∈ w.keywords x → KwOk (w'.editJson (c.op o.json)) kv.2.shape kv.2.json := by
    intro x kv hkv
    have h1 := t.shapes x kv hkv
    have hsc1 : ∀ y, w'.isSchema y = true → (w'.editJson (c.op o.json)).isSchema y = true := fun y h =>
      (hsch y).trans ((t.isSchema y).symm.trans h)
    have hsc0 : ∀ y, w'.isSchema y = false → (w'.editJson (c.op o.json)).isSchema y = false := fun y h =>
      (hsch y).trans ((t.isSchema y).symm.trans h)
    have harr : ∀ j cs, w'.heap.data j = .arr cs → (∀ c ∈ cs, w'.isSchema c = true) →
        ∃ cs', (w'.editJson (c.op o.json)).heap.data j = .arr cs' ∧ ∀ c' ∈ cs', (w'.editJson (c.op o.json)).isSchema c' = true := by
      intro j cs hd hcs
      by_cases hj : j = o.json
      · subst hj
        refine ⟨c.items cs, by rw [hjson, hd]; rfl, fun c' hc' => hsc1 _ (hcs _ ?_)⟩
        exact c.data_kids (.arr cs) c' hc'
      · exact ⟨cs, by rw [hdata j hj, hd], fun c' hc' => hsc1 _ (hcs _ hc')⟩
    have hstr : ∀ j a, w'.heap.data j = .str a → (w'.editJson (c.op o.json)).heap.data j = .str a := by
      intro j a hd
      by_cases hj : j = o.json
      · subst hj; rw [hjson, hd]; rfl
      · rw [hdata j hj, hd]
    unfold KwOk at h1 ⊢
    split at h1
    · exact hsc1 _ h1
    · rcases h1 with ⟨a, cs, b, d⟩ | ⟨a, a', b⟩
      · exact .inl ⟨hsc0 _ a, harr _ cs b d⟩
      · exact .inr ⟨hnos a, a', hstr _ _ b⟩
    · obtain ⟨a, ms, b, d⟩ := h1
      refine ⟨hsc0 _ a, ?_⟩
      by_cases hj : kv.2.json = o.json
      · refine ⟨c.members ms, by rw [hj, hjson, ← hj, b]; rfl, fun kc hkc => hsc1 _ ?_⟩
        have := c.data_kids (.obj ms) kc.2 (List.mem_map_of_mem hkc)
        obtain ⟨kc', h3, h4⟩ := List.mem_map.1 this
        rw [← h4]; exact d kc' h3
      · exact ⟨ms, by rw [hdata _ hj, b], fun kc hkc => hsc1 _ (d kc hkc)⟩
    · rcases h1 with a | ⟨a, cs, b, d⟩ | ⟨a, a', b⟩
      · exact .inl (hsc1 _ a)
      · exact .inr (.inl ⟨hsc0 _ a, harr _ cs b d⟩)
      · exact .inr (.inr ⟨hnos a, a', hstr _ _ b⟩)
    · exact hnos h1
  -- what is evaluated
  have hown : (w'.editJson (c.op o.json)).kwOf E (key, o) = (w'.kwOf E (key, o)).map c.kw := by
    have h1 := t.shapes s _ hm
    have hkind := hw.kinds s _ hm
    have hcut := fun p hp => forms_cut (dia := dia) p hp
    simp only [Kinded] at hkind
    simp only [World.kwOf]
    have dead : key = "$defs" ∨ o.shape ∉ ([.subschema, .arrayOfSubschemas, .objectOfSubschemas, .subschemaOrArray] : List KwShape) →
        key = "$defs" := by
      rintro (h | h)
      · exact h
      · rcases hh with hh | hh | hh <;> simp [hh] at h
    have defs : key = "$defs" → (w'.editJson (c.op o.json)).kwOfForm E key o (dlookup key kwForms) =
        (w'.kwOfForm E key o (dlookup key kwForms)).map c.kw := by
      rintro rfl
      have : dlookup "$defs" (kwForms (dia := dia)) = some defsForm := by cases dia <;> rfl
      rw [this]; rfl
    cases hf : dlookup key kwForms with
    | none => rw [hf] at hkind; rw [← hf]; exact defs (dead hkind)
    | some f =>
      have hc3 := hcut _ (dlookup_mem hf)
      rw [hf] at hkind
      cases f with
      | one f => simp only [] at hkind; rcases hh with hh | hh | hh <;> rw [hh] at hkind <;> cases hkind
      | many f =>
        simp only [] at hkind
        simp only [hkind, KwOk] at h1
        simp only [World.kwOfForm, hjson]
        rcases h1 with ⟨-, cs, b, -⟩ | ⟨-, a, b⟩
        · simp only [b, Cut.data, Option.map_some, hc3.1 f rfl]
        · simp only [b, Cut.data, Option.map_none]
      | named f =>
        simp only [] at hkind
        simp only [hkind, KwOk] at h1
        obtain ⟨-, ms, b, -⟩ := h1
        simp only [World.kwOfForm, hjson, b, Cut.data, Option.map_some, hc3.2.1 f rfl]
      | either f g =>
        simp only [] at hkind
        simp only [hkind, KwOk] at h1
        simp only [World.kwOfForm, hjson]
        rcases h1 with a | ⟨-, cs, b, -⟩ | ⟨-, a, b⟩
        · rw [t.isSchema, hs] at a; cases a
        · simp only [b, Cut.data, Option.map_some, (hc3.2.2 f g rfl c).1]
        · simp only [b, Cut.data, Option.map_some]
          rw [(hc3.2.2 f g rfl c).2]
      | _ => rw [← hf]; exact defs (dead hkind)
  have hrest : ∀ x kv, kv ∈ w.keywords x → kv.2.json ≠ o.json →
      (w'.editJson (c.op o.json)).kwOf E kv = w'.kwOf E kv := by
    rintro x ⟨k, p⟩ hkv hj
    have h1 := t.shapes x _ hkv
    have hkind := hw.kinds x _ hkv
    simp only [Kinded] at hkind
    simp only [World.kwOf]
    simp only [] at h1 hj
    have plain : ∀ f, p.shape ∉ ([.subschema, .arrayOfSubschemas, .objectOfSubschemas, .subschemaOrArray] : List KwShape) →
        (w'.editJson (c.op o.json)).kwOfForm E k p f = w'.kwOfForm E k p f := fun f hs' => by
      have hno : NoSchema w' p.json := by
        simp only [List.mem_cons, List.not_mem_nil, or_false, not_or] at hs'
        unfold KwOk at h1
        split at h1 <;> first | exact h1 | (rename_i h; simp [h] at hs')
      have hnd : ∀ y, Desc w'.heap p.json y → y ≠ o.json := by
        rintro y hy rfl
        rcases desc_tail hy with e | ⟨q, h2, h3⟩
        · exact hj e
        · have hq := (t.inv.ord.kid q _ h3).2.2
          rw [t.parent, hkid.2.2] at hq
          cases hq
          have := hno s h2
          rw [t.isSchema, hsc] at this
          cases this
      exact kwOfForm_congr (hdata _ hj)
        (val_congr t.inv.ord i1.ord (fun y => Desc w'.heap p.json y) (fun y hy => hdata y (hnd y hy))
          (fun _ hy c hc => desc_trans hy (.step hc .refl)) _ .refl) f
    have defs : k = "$defs" → (w'.editJson (c.op o.json)).kwOfForm E k p (dlookup k kwForms) =
        w'.kwOfForm E k p (dlookup k kwForms) := by
      rintro rfl
      have : dlookup "$defs" (kwForms (dia := dia)) = some defsForm := by cases dia <;> rfl
      rw [this]; rfl
    cases hf : dlookup k kwForms with
    | none =>
      rw [hf] at hkind
      rcases hkind with h | h
      · rw [← hf]; exact defs h
      · exact plain _ h
    | some f =>
      rw [hf] at hkind
      cases f with
      | one f => rfl
      | many f => simp only [World.kwOfForm, hdata _ hj]
      | named f => simp only [World.kwOfForm, hdata _ hj]
      | either f g => simp only [World.kwOfForm, hdata _ hj]
      | _ =>
        rcases hkind with h | h
        · rw [← hf]; exact defs h
        · exact plain _ h
  refine ⟨hinfo, t.caches, i2.trans t.next, fun x => (i3 x).trans (t.parent x), i1,
    fun x hx => (hdata x (hne hx)).trans (t.sdata x hx), fun x hx => ?_, hshapes, fun x kv kw hkv he => ?_, fun x => ?_⟩
  · obtain ⟨b, hb⟩ := hx
    by_cases hxj : x = o.json
    · subst hxj
      rw [hjson] at hb ⊢
      cases hd : w'.heap.data o.json with
      | bool b' => rw [← t.kinds _ ⟨b', hd⟩, hd]; rfl
      | _ => rw [hd] at hb; cases hb
    · rw [hdata x hxj] at hb ⊢
      exact t.kinds x ⟨b, hb⟩
  · by_cases hj : kv.2.json = o.json
    · obtain ⟨k, p⟩ := kv
      obtain ⟨hxs, ms1, hd1, hm1⟩ := keywords_member ok hkv
      have hp1 := (ok.ord.kid x p.json (by rw [hd1]; exact List.mem_map.2 ⟨_, hm1, rfl⟩)).2.2
      simp only [] at hj
      rw [hj, hkid.2.2] at hp1
      cases hp1
      cases keywords_unique ok hkv hm (.inr hj)
      rw [hown] at he
      obtain ⟨kw', h1, rfl⟩ := Option.map_eq_some_iff.1 he
      rw [Cut.kw_key]
      exact t.named _ _ _ hkv h1
    · rw [hrest x kv hkv hj] at he
      exact t.named x kv kw hkv he
  · have hx := t.obj x
    simp only [Store.cuts, Store.cut]
    rw [← hx]
    by_cases hxs : x = s
    · subst hxs
      rw [if_pos rfl]
      simp only [World.schemaObj, hdata x (hne hsc), t.sdata x hsc, hd0, hkw, t.keywords, Cut.obj, SchemaObj.obj.injEq]
      refine filterMap_map fun kv hkv => ?_
      by_cases hj : kv.2.json = o.json
      · cases keywords_unique ok hkv hm (.inr hj)
        rw [hown]
        cases he : w'.kwOf E (key, o) with
        | none => rfl
        | some kw => simp only [Option.map_some, t.named x _ kw hkv he, if_true]
      · rw [hrest x kv hkv hj]
        cases he : w'.kwOf E kv with
        | none => rfl
        | some kw =>
          simp only [Option.map_some, t.named x _ kw hkv he]
          rw [if_neg]
          intro e
          exact hj (by rw [keywords_unique ok hkv hm (.inl e)])
    · rw [if_neg hxs]
      have hkws : (w.keywords x).filterMap ((w'.editJson (c.op o.json)).kwOf E) = (w.keywords x).filterMap (w'.kwOf E) := by
        have := filterMap_map (l := w.keywords x) (f := w'.kwOf E) (f' := (w'.editJson (c.op o.json)).kwOf E) (g := id)
          fun kv hkv => by
            rw [hrest x kv hkv ?_]
            · cases w'.kwOf E kv <;> rfl
            · intro e
              obtain ⟨hxs', ms1, hd1, hm1⟩ := keywords_member ok hkv
              have hp1 := (ok.ord.kid x kv.2.json (by rw [hd1]; exact List.mem_map.2 ⟨_, hm1, rfl⟩)).2.2
              rw [e, hkid.2.2] at hp1
              cases hp1
              exact hxs rfl
        rw [this, List.map_id]
      simp only [World.schemaObj, hkw, t.keywords, hkws]
      by_cases hxj : x = o.json
      · subst hxj
        rw [hjson]
        cases w'.heap.data o.json <;> rfl
      · rw [hdata x hxj]

theorem Spec.Pruned.ok (hw : Orderly w) (h : Pruned w w' cuts) : PrunedOk E cid w w' cuts := by
  induction h with
  | refl => exact .start hw
  | cut c _ hm hh hs ih => exact ih.step hw c hm hh hs

/-- Evaluation sees all keywords. -/
theorem PrunedOk.live (hw : Orderly w) (t : PrunedOk E cid w w' cuts) : w'.liveStore E cid = w'.store E cid := by
  have : w'.liveObj E = w'.schemaObj E := by
    funext x
    unfold World.liveObj
    cases ho : w'.schemaObj E x with
    | bool b => rfl
    | obj kws =>
      simp only [SchemaObj.obj.injEq]
      refine List.filter_eq_self.2 fun kw hkw => ?_
      cases kw with
      | static k v =>
        have hmem : ∃ kv ∈ w'.keywords x, w'.kwOf E kv = some (.static k v) := by
          unfold World.schemaObj at ho
          split at ho
          · cases ho
          · cases ho; exact List.mem_filterMap.1 hkw
        obtain ⟨kv, hm, e⟩ := hmem
        rw [t.keywords] at hm
        obtain ⟨hs, ms, hd, hc⟩ := keywords_member hw.ok hm
        have hk : k = kv.1 := t.named x kv _ hm e
        rw [← hk] at hc
        have : (dlookup k ms).isSome = true := dlookup_isSome.2 (List.mem_map.2 ⟨_, hc, rfl⟩)
        simp [Kw.seen, t.sdata x hs, hd, this]
      | _ => rfl
  unfold World.liveStore
  rw [this]
  rfl

theorem PrunedOk.lookup (t : PrunedOk E cid w w' cuts) {b f : String} (hf : NoPointer E f) :
    (w'.store E cid).lookup b f = (w.store E cid).lookup b f := by
  simp only [World.store]
  cases hu : E.lib.resolve (E.lib.ofText ("#" ++ f)) (E.lib.ofText b) with
  | none => rfl
  | some u =>
    simp only [getSchemaWith_split]
    have e1 : cacheGet w'.caches cid u = cacheGet w.caches cid u := by rw [t.caches]
    have e2 : baseCached w' cid u = baseCached w cid u := by simp only [baseCached, t.caches]
    rw [e1, e2]
    cases cacheGet w.caches cid u with
    | some s => rfl
    | none =>
      cases baseCached w cid u with
      | none =>
        simp only [loadSchema, Bind.bind, M.andThen, M.ofExcept, M.raise]
        cases loadJson E.lib E.sources u.noFragment <;> rfl
      | some s => simp only [getSchemaEnd_split u s _ (fun g => hf b u g hu), t.isSchema]

theorem cuts_base {st : Store} : ∀ cuts, (Store.cuts st cuts).base = st.base
  | [] => rfl
  | (_, _, _) :: cs => cuts_base cs

theorem cuts_lookup {st : Store} : ∀ cuts, (Store.cuts st cuts).lookup = st.lookup
  | [] => rfl
  | (_, _, _) :: cs => cuts_lookup cs

theorem Spec.Cut.kw_dynamic {c : Cut} {kw : Kw} {t : Nat} {f : String} {d : Bool} (h : c.kw kw = .dynamicRef t f d) :
    kw = .dynamicRef t f d := by
  cases kw <;> simp_all [Cut.kw]

theorem cuts_dynamic {st : Store} {x t : Nat} {f : String} {d : Bool} : ∀ cuts {kws},
    (Store.cuts st cuts).obj x = .obj kws → .dynamicRef t f d ∈ kws → ∃ kws', st.obj x = .obj kws' ∧ .dynamicRef t f d ∈ kws'
  | [], kws, h, hm => ⟨kws, h, hm⟩
  | (s, key, c) :: cs, kws, h, hm => by
    simp only [Store.cuts, Store.cut] at h
    split at h
    · cases ho : (Store.cuts st cs).obj x with
      | bool b => rw [ho] at h; cases h
      | obj kws1 =>
        rw [ho] at h
        cases h
        obtain ⟨kw, h1, h2⟩ := List.mem_map.1 hm
        refine cuts_dynamic cs ho ?_
        split at h2
        · rw [← Cut.kw_dynamic h2]; exact h1
        · rw [← h2]; exact h1
    · exact cuts_dynamic cs h hm

/-- Evaluation after deletions. -/
theorem PrunedOk.evaluate (hw : Orderly w) (t : PrunedOk E cid w w' cuts)
    (hdyn : ∀ x kws u f, (w.store E cid).obj x = .obj kws → .dynamicRef u f true ∈ kws → NoPointer E f)
    {env : Env} {n : Nat} {s : SRef} {i : Inst} :
    Jschon.evaluate (w'.liveStore E cid) env n s i =
      Jschon.evaluate (Store.cuts (w.store E cid) cuts) env n s i := by
  rw [t.live hw]
  refine evaluate_island (P := fun _ => True) ⟨fun _ _ _ _ _ _ _ _ => trivial, fun _ _ _ _ _ _ _ _ _ _ _ _ _ => trivial⟩
    ⟨fun x _ => t.obj x, fun x kws u f _ ho hm y _ => ⟨?_, fun b _ => ?_⟩⟩ trivial
  · rw [cuts_base]
    simp only [World.store, World.baseUri, t.nearest]
  · rw [cuts_lookup]
    obtain ⟨kws', h1, h2⟩ := cuts_dynamic cuts ho hm
    exact t.lookup (hdyn x kws' u f h1 h2)

end

end Jschon
