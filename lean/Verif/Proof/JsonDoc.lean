import Verif.Proof.JsonOps

namespace Jschon
open Spec

/-! ## Evaluation of pointers on instances -/

theorem dlookup_map {β γ : Type} (f : β → γ) (k : String) (ms : List (String × β)) :
    dlookup k (ms.map (fun m => (m.1, f m.2))) = (dlookup k ms).map f := by
  induction ms with
  | nil => rfl
  | cons m ms ih =>
    simp only [List.map_cons, dlookup]
    split
    · rfl
    · exact ih

theorem childD_lookup {ms : List (String × Ref)} {k : String} {c : Ref}
    (hn : (dkeys ms).Nodup) : ChildD (.obj ms) k c ↔ dlookup k ms = some c :=
  ⟨fun h => dlookup_of_mem hn h, fun h => dlookup_mem h⟩

/-- Every instance is found by its location. -/
theorem reach_resolve {h : JHeap} (hn : ∀ r ms, h.data r = .obj ms → (dkeys ms).Nodup) {r c : Ref}
    {ks : List String} (hr : Reach h r ks c) : resolveJson h ks r = .ok c := by
  induction hr with
  | here => simp [resolveJson]
  | @step r k c ks d hc _ ih =>
    simp only [resolveJson]
    simp only [Child] at hc
    cases hd : h.data r with
    | arr cs =>
      rw [hd] at hc
      obtain ⟨i, rfl, hi⟩ := hc
      simp only [pyInt_natStr, pyIndex_natCast, hi, ih]
    | obj ms =>
      rw [hd] at hc
      simp only [(childD_lookup (hn r ms hd)).1 hc, ih]
    | _ => rw [hd] at hc; exact hc.elim

theorem pyIndex_mem {α : Type} {xs : List α} {i : Int} {x : α} (h : pyIndex xs i = some x) :
    ∃ n : Nat, xs[n]? = some x := by
  unfold pyIndex at h
  split at h
  · exact ⟨_, h⟩
  · split at h
    · exact ⟨_, h⟩
    · cases h

/-- Whatever is found is somewhere below. -/
theorem resolve_reach {h : JHeap} {r c : Ref} {ks : List String} (hr : resolveJson h ks r = .ok c) :
    ∃ ks', ks'.length = ks.length ∧ Reach h r ks' c := by
  induction ks generalizing r with
  | nil => simp [resolveJson] at hr; subst hr; exact ⟨[], rfl, .here⟩
  | cons k ks ih =>
    simp only [resolveJson] at hr
    cases hd : h.data r with
    | arr cs =>
      simp only [hd] at hr
      cases hp : pyInt k with
      | none => simp [hp] at hr
      | some i =>
        simp only [hp] at hr
        cases hx : pyIndex cs i with
        | none => simp [hx] at hr
        | some u =>
          simp only [hx] at hr
          obtain ⟨ks', h1, h2⟩ := ih hr
          obtain ⟨n, hn⟩ := pyIndex_mem hx
          exact ⟨natStr n :: ks', by simp [h1], .step (by rw [Child, hd]; exact ⟨n, rfl, hn⟩) h2⟩
    | obj ms =>
      simp only [hd] at hr
      cases hx : dlookup k ms with
      | none => simp [hx] at hr
      | some u =>
        simp only [hx] at hr
        obtain ⟨ks', h1, h2⟩ := ih hr
        exact ⟨k :: ks', by simp [h1], .step (by rw [Child, hd]; exact dlookup_mem hx) h2⟩
    | _ => simp [hd] at hr

theorem resolveJson_append (h : JHeap) (ks ks' : List String) (r : Ref) :
    resolveJson h (ks ++ ks') r =
      match resolveJson h ks r with
      | .ok c => resolveJson h ks' c
      | .error e => .error e := by
  induction ks generalizing r with
  | nil => simp [resolveJson]
  | cons k ks ih =>
    simp only [List.cons_append, resolveJson]
    cases h.data r with
    | arr cs =>
      simp only
      cases pyInt k with
      | none => rfl
      | some i =>
        simp only
        cases pyIndex cs i with
        | none => rfl
        | some u => exact ih u
    | obj ms =>
      simp only
      cases dlookup k ms with
      | none => rfl
      | some u => exact ih u
    | _ => rfl

theorem reach_append {h : JHeap} {a b c : Ref} {ks ks' : List String} (h1 : Reach h a ks b)
    (h2 : Reach h b ks' c) : Reach h a (ks ++ ks') c := by
  induction h1 with
  | here => exact h2
  | step hc _ ih => exact .step hc (ih h2)

theorem reach_split {h : JHeap} {a c : Ref} {ks ks' : List String} (hr : Reach h a (ks ++ ks') c) :
    ∃ b, Reach h a ks b ∧ Reach h b ks' c := by
  induction ks generalizing a with
  | nil => exact ⟨a, .here, hr⟩
  | cons k ks ih =>
    cases hr with
    | step hc hr' =>
      obtain ⟨b, h1, h2⟩ := ih hr'
      exact ⟨b, .step hc h1, h2⟩

theorem reach_one {h : JHeap} {a c : Ref} {k : String} : Reach h a [k] c ↔ Child h a k c := by
  constructor
  · intro hr
    cases hr with
    | step hc hr' => cases hr'; exact hc
  · intro hc; exact .step hc .here

theorem reach_unique {h : JHeap} (hn : ∀ r ms, h.data r = .obj ms → (dkeys ms).Nodup) {r c c' : Ref}
    {ks : List String} (h1 : Reach h r ks c) (h2 : Reach h r ks c') : c = c' := by
  have := reach_resolve hn h1
  rw [reach_resolve hn h2] at this
  cases this; rfl

/-- Plain evaluation on the content finds the content of the instance at the same location. -/
theorem plain_reach {h : JHeap} (ho : Ord h) {r : Ref} {ks : List String} {v : Value}
    (hr : resolvePlain ks (val h r) = .ok v) : ∃ c, Reach h r ks c ∧ val h c = v := by
  induction ks generalizing r with
  | nil =>
    refine ⟨r, .here, ?_⟩
    cases hv : val h r <;> (rw [hv] at hr; simpa [resolvePlain] using hr)
  | cons k ks ih =>
    have hv := val_eq ho r
    rw [hv] at hr
    cases hd : h.data r with
    | arr cs =>
      simp only [hd, dataVal, resolvePlain] at hr
      by_cases hi : jsonIndexRe.fullmatch k.toList = true
      · simp only [hi, if_true] at hr
        obtain ⟨n, rfl⟩ := (isIndex_iff k).1 hi
        simp only [pyInt_natStr, pyIndex_natCast, List.getElem?_map] at hr
        cases hx : cs[n]? with
        | none => simp [hx] at hr
        | some u =>
          simp only [hx, Option.map_some] at hr
          obtain ⟨c, h1, h2⟩ := ih hr
          exact ⟨c, .step (by rw [Child, hd]; exact ⟨n, rfl, hx⟩) h1, h2⟩
      · simp [hi] at hr
    | obj ms =>
      simp only [hd, dataVal, resolvePlain, dlookup_map] at hr
      cases hx : dlookup k ms with
      | none => simp [hx] at hr
      | some u =>
        simp only [hx, Option.map_some] at hr
        obtain ⟨c, h1, h2⟩ := ih hr
        exact ⟨c, .step (by rw [Child, hd]; exact dlookup_mem hx) h1, h2⟩
    | _ => simp [hd, dataVal, resolvePlain] at hr

theorem reach_plain {h : JHeap} (ho : Ord h) (hn : ∀ r ms, h.data r = .obj ms → (dkeys ms).Nodup)
    {r c : Ref} {ks : List String} (hr : Reach h r ks c) :
    resolvePlain ks (val h r) = .ok (val h c) := by
  induction hr with
  | @here r => cases hv : val h r <;> simp [resolvePlain]
  | @step r k c ks d hc _ ih =>
    rw [val_eq ho r]
    simp only [Child] at hc
    cases hd : h.data r with
    | arr cs =>
      rw [hd] at hc
      obtain ⟨i, rfl, hi⟩ := hc
      have hm : jsonIndexRe.fullmatch (natStr i).toList = true := (isIndex_iff _).2 ⟨i, rfl⟩
      simp only [dataVal, resolvePlain, hm, if_true, pyInt_natStr, pyIndex_natCast,
        List.getElem?_map, hi, Option.map_some, ih]
    | obj ms =>
      rw [hd] at hc
      simp only [dataVal, resolvePlain, dlookup_map, (childD_lookup (hn r ms hd)).1 hc,
        Option.map_some, ih]
    | _ => rw [hd] at hc; exact hc.elim

/-! ## Composite operations -/

/-- What a method called on `r` can do: nothing, or change the content of one instance below `r`. -/
inductive Stepped (h h' : JHeap) (r : Ref) (good : Prop) : Prop
  | noop : Noop h h' → Stepped h h' r good
  | did {m v} (g : Prop) : Desc h r m → (good → g) → Did h h' m g v → Stepped h h' r good

theorem Stepped.winv {h h' : JHeap} {r : Ref} {good : Prop} (s : Stepped h h' r good) : WInv h' := by
  cases s with
  | noop n => exact n.winv
  | did g _ _ d => exact d.winv

theorem Stepped.inv {h h' : JHeap} {r : Ref} {good : Prop} (s : Stepped h h' r good) (hi : JInv h)
    (hg : good) : JInv h' := by
  cases s with
  | noop n => exact n.inv hi
  | did g _ h1 d => exact d.inv hi (h1 hg)

theorem Stepped.le {h h' : JHeap} {r : Ref} {good : Prop} (s : Stepped h h' r good) :
    h.next ≤ h'.next := by
  cases s with
  | noop n => exact n.quiet.le
  | did g _ h1 d => exact d.le

theorem stepped_setIdx {h : JHeap} (hi : WInv h) {r p : Ref} (hr : p < h.next) (hd : Desc h r p)
    {o : JArg} (hok : o.Ok h) (i : Int) : Stepped h (setIdx h p i o).1 r (0 ≤ i) := by
  by_cases hx : ∃ cs n, h.data p = .arr cs ∧ pyPos cs.length i = some n
  · obtain ⟨cs, n, h1, h2⟩ := hx
    exact .did (0 ≤ i) hd id (setIdx_spec hi hr hok h1 h2).2.1
  · refine .noop (setIdx_err hi hr hok fun cs hc => ?_).2
    cases hp : pyPos cs.length i with
    | none => rfl
    | some n => exact absurd ⟨cs, n, hc, hp⟩ hx

theorem stepped_setKey {h : JHeap} (hi : WInv h) {r p : Ref} (hr : p < h.next) (hd : Desc h r p)
    {o : JArg} (hok : o.Ok h) (k : String) : Stepped h (setKey h p k o).1 r True := by
  by_cases hx : ∃ ms, h.data p = .obj ms
  · obtain ⟨ms, h1⟩ := hx
    exact .did True hd id (setKey_spec hi hr hok h1).2.1
  · exact .noop (setKey_err hi hr hok fun ms hm => hx ⟨ms, hm⟩).2

theorem stepped_delIdx {h : JHeap} (hi : WInv h) {r p : Ref} (hr : p < h.next) (hd : Desc h r p)
    (i : Int) : Stepped h (delIdx h p i).1 r (0 ≤ i) := by
  by_cases hx : ∃ cs n, h.data p = .arr cs ∧ pyPos cs.length i = some n
  · obtain ⟨cs, n, h1, h2⟩ := hx
    exact .did (0 ≤ i) hd id (delIdx_spec hi hr h1 h2).2
  · rw [(delIdx_err fun cs hc => ?_).2]
    · exact .noop (.refl hi)
    · cases hp : pyPos cs.length i with
      | none => rfl
      | some n => exact absurd ⟨cs, n, hc, hp⟩ hx

theorem stepped_delKey {h : JHeap} (hi : WInv h) {r p : Ref} (hr : p < h.next) (hd : Desc h r p)
    (k : String) : Stepped h (delKey h p k).1 r True := by
  by_cases hx : ∃ ms, h.data p = .obj ms ∧ k ∈ dkeys ms
  · obtain ⟨ms, h1, h2⟩ := hx
    exact .did True hd id (delKey_spec hi hr h1 h2).2
  · rw [(delKey_err fun ms hm hk => hx ⟨ms, hm, hk⟩).2]
    exact .noop (.refl hi)

theorem stepped_insert {h : JHeap} (hi : WInv h) {r p : Ref} (hr : p < h.next) (hd : Desc h r p)
    {o : JArg} (hok : o.Ok h) (i : Int) : Stepped h (insertIdx h p i o).1 r (InsertOk h p i) := by
  by_cases hx : ∃ cs, h.data p = .arr cs
  · obtain ⟨cs, h1⟩ := hx
    exact .did _ hd (fun hg => hg cs h1) (insertIdx_spec hi hr hok h1).2.1
  · rw [(insertIdx_err fun cs hc => hx ⟨cs, hc⟩).2]
    exact .noop (.refl hi)

theorem stepped_append {h : JHeap} (hi : WInv h) {r : Ref} (hr : r < h.next)
    {o : JArg} (hok : o.Ok h) : Stepped h (appendJson h r o).1 r True := by
  unfold appendJson
  cases hl : lenJson h r with
  | error e => exact .noop (.refl hi)
  | ok n =>
    simp only
    have := stepped_insert hi hr .refl hok (n : Int)
    cases this with
    | noop hn => exact .noop hn
    | did g h1 h2 d =>
      refine .did g h1 (fun _ => h2 ?_) d
      intro cs hc
      simp only [lenJson, hc, Except.ok.injEq] at hl
      omega

theorem stepped_pop {h : JHeap} (hi : WInv h) {r : Ref} (hr : r < h.next) (i : Int) :
    Stepped h (popIdx h r i).1 r (0 ≤ i) := by
  unfold popIdx
  cases hg : getIdx h r i with
  | error e => exact .noop (.refl hi)
  | ok c =>
    have := stepped_delIdx hi hr .refl i
    generalize delIdx h r i = q at this
    obtain ⟨h1, e | ⟨⟩⟩ := q <;> exact this

theorem noop_readPath {h : JHeap} (hi : WInv h) {r : Ref} (hr : r < h.next) : Noop h (readPath h r).1 := by
  have hj := fun hj : JInv h => readPath_inv hj r hr
  unfold readPath at hj ⊢
  cases hc : (h.node r).bind JNode.pathC with
  | some p => exact .refl hi
  | none =>
    simp only [hc] at hj ⊢
    have e : Eqv h (h.alter r (fun n => { n with pathC := some ⟨walkKeys h.next h r⟩ })) :=
      eqv_alter h r (fun _ => rfl) (fun _ => rfl) (fun _ => rfl)
    refine ⟨e.quiet, ⟨e.ord hi.ord, fun r ms hm => ?_, fun r cs hd c hc => ?_, fun x v hv => ?_,
      fun r ms hd k c hm => by rw [e.data] at hd; rw [e.key]; exact hi.okey r ms hd k c hm⟩, hj⟩
    · rw [e.data] at hm; exact hi.nodup r ms hm
    · rw [e.data] at hd; rw [e.key]; exact hi.kint r cs hd c hc
    · rw [e.val hi.ord]
      rw [alter_valC h r x (f := fun n => { n with pathC := some ⟨walkKeys h.next h r⟩ })
        (fun _ => rfl)] at hv
      exact hi.val x v hv

theorem noop_readValue {h : JHeap} (hi : WInv h) (r : Ref) : Noop h (readValue h r).1 := by
  have := (readValue_spec hi.ord hi.val r).1
  exact ⟨this.eqv.quiet, this.winv hi, this.inv⟩

theorem noop_argValue {h : JHeap} (hi : WInv h) (o : JArg) : Noop h (argValue h o).1 := by
  have := (argValue_spec hi.ord hi.val o).1
  exact ⟨this.eqv.quiet, this.winv hi, this.inv⟩

theorem reinit_arg_spec {h : JHeap} (hi : WInv h) {r : Ref} (hr : r < h.next) {o : JArg} (hok : o.Ok h) :
    Did h (invalValue (reinit (argValue h o).1 r (argValue h o).2) r) r True (o.val h) := by
  have hn := noop_argValue hi o
  obtain ⟨a1, a2⟩ := argValue_spec hi.ord hi.val o
  have hwf : (argValue h o).2.WF := by rw [a2]; exact argVal_wf hi hok
  have hd := reinit_spec hn.winv (Nat.lt_of_lt_of_le hr hn.quiet.le) hwf
  obtain ⟨⟨h1, d, b1, b2, b3⟩, b4, b5⟩ := hd
  refine ⟨⟨h1, d, hn.trans b1, b2, fun hj _ => b3 (hn.inv hj) trivial⟩, b4.trans a2, fun c hc hl => ?_⟩
  rw [← hn.quiet.data r hr]
  exact b5 c hc (Nat.lt_of_lt_of_le hl hn.quiet.le)

/-- The target of a non-empty pointer and its parent. -/
theorem target_parent {h : JHeap} (ho : Ord h) {r t : Ref} {ks : List String} (hne : ks ≠ [])
    (hr : resolveJson h ks r = .ok t) :
    ∃ p, Desc h r p ∧ h.parent t = some p ∧ t ∈ (h.data p).kids := by
  obtain ⟨ks', h1, h2⟩ := resolve_reach hr
  have hd := reach_desc h2
  rcases desc_tail hd with rfl | ⟨p, h3, h4⟩
  · exfalso
    cases ks' with
    | nil => cases ks with
      | nil => exact hne rfl
      | cons => simp at h1
    | cons k ks' =>
      cases h2 with
      | step hc hr' =>
        have := desc_le ho (reach_desc hr')
        have := (ho.kid _ _ (childD_kid hc)).1
        omega
  · exact ⟨p, h3, (ho.kid p t h4).2.2, h4⟩

theorem Stepped.weaken {h h' : JHeap} {r : Ref} {g g' : Prop} (s : Stepped h h' r g) (hg : g' → g) :
    Stepped h h' r g' := by
  cases s with
  | noop n => exact .noop n
  | did g1 h1 h2 d => exact .did g1 h1 (fun h => h2 (hg h)) d

theorem stepped_add {h : JHeap} (hi : WInv h) {r : Ref} (hr : r < h.next) (p : Ptr)
    {o : JArg} (hok : o.Ok h) : Stepped h (jsonAdd h r p o).1 r True := by
  unfold jsonAdd
  split
  · exact .did True .refl id (reinit_arg_spec hi hr hok)
  · cases hres : resolveJson h (p.slice none (some (-1))).keys r with
    | error e => exact .noop (.refl hi)
    | ok q =>
      simp only
      obtain ⟨ks', _, hq⟩ := resolve_reach hres
      have hdq := reach_desc hq
      have hq' := desc_has hi.ord hdq hr
      cases hk : p.item (-1) with
      | none => exact .noop (.refl hi)
      | some k =>
        simp only
        cases hd : h.data q with
        | arr cs =>
          simp only
          cases hs : nodeSeq cs.length k with
          | error e => exact .noop (.refl hi)
          | ok t =>
            rcases nodeSeq_ok_cases hs with ⟨i, rfl⟩ | rfl
            · have hlt := (nodeSeq_item.1 hs).2
              exact (stepped_insert hi hq' hdq hok (i : Int)).weaken (by
                intro _ cs' hc; rw [hd] at hc; cases hc; omega)
            · exact (stepped_insert hi hq' hdq hok (cs.length : Int)).weaken (by
                intro _ cs' hc; rw [hd] at hc; cases hc; omega)
        | obj ms => exact stepped_setKey hi hq' hdq hok k
        | _ => exact .noop (noop_readPath hi hq')

theorem kid_int {h : JHeap} (hi : WInv h) {p t : Ref} {cs : List Ref} (hd : h.data p = .arr cs)
    (ht : t ∈ cs) : ∃ z, intKey h t = .ok z ∧ (JInv h → ∃ n : Nat, z = n ∧ cs[n]? = some t) := by
  obtain ⟨k, z, h1, h2⟩ := hi.kint p cs hd t ht
  refine ⟨z, by simp [intKey, h1, h2], fun hj => ?_⟩
  obtain ⟨n, hn⟩ := List.getElem?_of_mem ht
  have := hj.keys.key p (natStr n) t (by rw [Child, hd]; exact ⟨n, rfl, hn⟩)
  rw [h1] at this; cases this
  rw [pyInt_natStr] at h2; cases h2
  exact ⟨n, rfl, hn⟩

theorem ptr_len_ne {p : Ptr} (h : ¬ p.len = 0) : p.keys ≠ [] := by
  intro hk; apply h; simp [Ptr.len, hk]

theorem stepped_remove {h : JHeap} (hi : WInv h) {r : Ref} (hr : r < h.next) (p : Ptr) :
    Stepped h (jsonRemove h r p).1 r (JInv h) := by
  unfold jsonRemove
  split
  · exact .did True .refl (fun _ => trivial) (reinit_spec hi hr .null)
  · rename_i hne
    cases hres : resolveJson h p.keys r with
    | error e => exact .noop (.refl hi)
    | ok t =>
      obtain ⟨q, h1, h2, h3⟩ := target_parent hi.ord (ptr_len_ne hne) hres
      have hq' := desc_has hi.ord h1 hr
      simp only [h2]
      cases hd : h.data q with
      | arr cs =>
        rw [hd] at h3
        obtain ⟨z, hz1, hz2⟩ := kid_int hi hd h3
        simp only [hz1]
        exact (stepped_delIdx hi hq' h1 z).weaken (fun hj => by obtain ⟨n, rfl, _⟩ := hz2 hj; omega)
      | obj ms => exact (stepped_delKey hi hq' h1 _).weaken (fun _ => trivial)
      | _ => exact .noop (.refl hi)

theorem stepped_replace {h : JHeap} (hi : WInv h) {r : Ref} (hr : r < h.next) (p : Ptr)
    {o : JArg} (hok : o.Ok h) : Stepped h (jsonReplace h r p o).1 r (JInv h) := by
  unfold jsonReplace
  split
  · exact .did True .refl (fun _ => trivial) (reinit_arg_spec hi hr hok)
  · rename_i hne
    cases hres : resolveJson h p.keys r with
    | error e => exact .noop (.refl hi)
    | ok t =>
      obtain ⟨q, h1, h2, h3⟩ := target_parent hi.ord (ptr_len_ne hne) hres
      have hq' := desc_has hi.ord h1 hr
      simp only [h2]
      cases hd : h.data q with
      | arr cs =>
        rw [hd] at h3
        obtain ⟨z, hz1, hz2⟩ := kid_int hi hd h3
        simp only [hz1]
        exact (stepped_setIdx hi hq' h1 hok z).weaken (fun hj => by obtain ⟨n, rfl, _⟩ := hz2 hj; omega)
      | obj ms => exact (stepped_setKey hi hq' h1 hok _).weaken (fun _ => trivial)
      | _ => exact .noop (.refl hi)

theorem noop_new {h : JHeap} (hi : WInv h) {v : Value} (hv : v.WF) (par : Option Ref)
    (key : Option String) (hp : ∀ p, par = some p → p < h.next) : Noop h (newJson h v par key).1 := by
  obtain ⟨b0, b1, b2, b3, b4, b5, b6, b7⟩ := newJson_spec hi.ord v hv par key hp
  exact ⟨b1.quiet, ext_winv hi b1 b2 b3, fun hj => ext_inv hj b1 b2 b3⟩

/-! ## Histories -/

theorem step_cases {h : JHeap} (hi : WInv h) (op : JOp) (ha : op.ArgsOk h) :
    Noop h (op.step h) ∨ ∃ r, r < h.next ∧ Stepped h (op.step h) r (JInv h ∧ op.InRange h) := by
  cases op with
  | new v => exact .inl (noop_new hi ha none none (by simp))
  | newChild v p k => exact .inl (noop_new hi ha.1 (some p) (some k) (by intro q hq; cases hq; exact ha.2))
  | path r => exact .inl (noop_readPath hi ha)
  | value r => exact .inl (noop_readValue hi r)
  | setIdx r i o => exact .inr ⟨r, ha.1, (stepped_setIdx hi ha.1 .refl ha.2 i).weaken (fun h => h.2)⟩
  | setKey r k o => exact .inr ⟨r, ha.1, (stepped_setKey hi ha.1 .refl ha.2 k).weaken (fun _ => trivial)⟩
  | delIdx r i => exact .inr ⟨r, ha, (stepped_delIdx hi ha .refl i).weaken (fun h => h.2)⟩
  | delKey r k => exact .inr ⟨r, ha, (stepped_delKey hi ha .refl k).weaken (fun _ => trivial)⟩
  | insert r i o => exact .inr ⟨r, ha.1, (stepped_insert hi ha.1 .refl ha.2 i).weaken (fun h => h.2)⟩
  | append r o => exact .inr ⟨r, ha.1, (stepped_append hi ha.1 ha.2).weaken (fun _ => trivial)⟩
  | pop r i => exact .inr ⟨r, ha, (stepped_pop hi ha i).weaken (fun h => h.2)⟩
  | add r p o => exact .inr ⟨r, ha.1, (stepped_add hi ha.1 p ha.2).weaken (fun _ => trivial)⟩
  | remove r p => exact .inr ⟨r, ha, (stepped_remove hi ha p).weaken (fun h => h.1)⟩
  | replace r p o => exact .inr ⟨r, ha.1, (stepped_replace hi ha.1 p ha.2).weaken (fun h => h.1)⟩

theorem step_winv {h : JHeap} (hi : WInv h) (op : JOp) (ha : op.ArgsOk h) : WInv (op.step h) := by
  rcases step_cases hi op ha with h1 | ⟨r, _, h1⟩
  · exact h1.winv
  · exact h1.winv

theorem step_inv {h : JHeap} (hi : JInv h) (op : JOp) (ha : op.ArgsOk h) (hr : op.InRange h) :
    JInv (op.step h) := by
  rcases step_cases hi.weak op ha with h1 | ⟨r, _, h1⟩
  · exact h1.inv hi
  · exact h1.inv hi ⟨hi, hr⟩

theorem History.winv {h : JHeap} (hh : History h) : WInv h := by
  induction hh with
  | start => exact inv_empty.weak
  | call op _ ha ih => exact step_winv ih op ha

theorem InRangeHistory.inv {h : JHeap} (hh : InRangeHistory h) : JInv h := by
  induction hh with
  | start => exact inv_empty
  | call op _ ha hr ih => exact step_inv ih op ha hr

/-! ## Receivers, and documents that have nothing in common -/

theorem step_receiver {h : JHeap} (hi : WInv h) (op : JOp) (ha : op.ArgsOk h) {r : Ref}
    (hr : op.receiver = some r) : Stepped h (op.step h) r (JInv h ∧ op.InRange h) := by
  cases op <;> simp only [JOp.receiver, Option.some.injEq, reduceCtorEq] at hr <;> subst hr
  case path r => exact .noop (noop_readPath hi ha)
  case value r => exact .noop (noop_readValue hi r)
  case setIdx r i o => exact (stepped_setIdx hi ha.1 .refl ha.2 i).weaken (fun h => h.2)
  case setKey r k o => exact (stepped_setKey hi ha.1 .refl ha.2 k).weaken (fun _ => trivial)
  case delIdx r i => exact (stepped_delIdx hi ha .refl i).weaken (fun h => h.2)
  case delKey r k => exact (stepped_delKey hi ha .refl k).weaken (fun _ => trivial)
  case insert r i o => exact (stepped_insert hi ha.1 .refl ha.2 i).weaken (fun h => h.2)
  case append r o => exact (stepped_append hi ha.1 ha.2).weaken (fun _ => trivial)
  case pop r i => exact (stepped_pop hi ha i).weaken (fun h => h.2)
  case add r p o => exact (stepped_add hi ha.1 p ha.2).weaken (fun _ => trivial)
  case remove r p => exact (stepped_remove hi ha p).weaken (fun h => h.1)
  case replace r p o => exact (stepped_replace hi ha.1 p ha.2).weaken (fun h => h.1)

/-- No call attaches an existing instance to an existing instance. -/
theorem step_kids {h : JHeap} (hi : WInv h) (op : JOp) (ha : op.ArgsOk h) {x c : Ref} (hx : x < h.next)
    (hc : c < h.next) (hk : c ∈ ((op.step h).data x).kids) : c ∈ (h.data x).kids := by
  rcases step_cases hi op ha with h1 | ⟨r, _, h1⟩
  · rw [h1.quiet.data x hx] at hk; exact hk
  · cases h1 with
    | noop h1 => rw [h1.quiet.data x hx] at hk; exact hk
    | @did m v g _ _ h2 =>
      by_cases hm : x = m
      · subst hm; exact h2.kids c hk hc
      · rw [h2.data_other hx hm] at hk; exact hk

theorem step_next {h : JHeap} (hi : WInv h) (op : JOp) (ha : op.ArgsOk h) : h.next ≤ (op.step h).next := by
  rcases step_cases hi op ha with h1 | ⟨r, _, h1⟩
  · exact h1.quiet.le
  · exact h1.le

theorem step_desc {h : JHeap} (hi : WInv h) (op : JOp) (ha : op.ArgsOk h) {a b : Ref}
    (hd : Desc (op.step h) a b) (hb : b < h.next) : Desc h a b := by
  have ho := (step_winv hi op ha).ord
  induction hd with
  | refl => exact .refl
  | @step r c x hc hd ih =>
    have h1 := desc_le ho hd
    have h2 := (ho.kid r c hc).1
    exact .step (step_kids hi op ha (by omega) (by omega) hc) (ih hb)

/-- Two instances above a third are above one another. -/
theorem desc_between {h : JHeap} (ho : Ord h) {a b x : Ref} (h1 : Desc h a x) (h2 : Desc h b x) :
    Desc h a b ∨ Desc h b a := by
  obtain ⟨n, hn⟩ : ∃ n, n = x := ⟨_, rfl⟩
  induction n using Nat.strongRecOn generalizing x with
  | _ n ih =>
    subst hn
    rcases desc_tail h1 with rfl | ⟨p, h3, h4⟩
    · exact .inr h2
    · rcases desc_tail h2 with rfl | ⟨q, h5, h6⟩
      · exact .inl h1
      · obtain ⟨k1, _, k2⟩ := ho.kid p n h4
        obtain ⟨_, _, k3⟩ := ho.kid q n h6
        rw [k2] at k3
        cases k3
        exact ih p k1 h3 h5 rfl

theorem apart_iff {h : JHeap} (ho : Ord h) {a b : Ref} : Apart h a b ↔ ¬ Desc h a b ∧ ¬ Desc h b a := by
  constructor
  · intro hA
    refine ⟨fun hd => ?_, fun hd => ?_⟩
    · exact hA b (desc_reach hd) ⟨_, .here⟩
    · exact hA a ⟨_, .here⟩ (desc_reach hd)
  · rintro ⟨h1, h2⟩ x ⟨ks, hx⟩ ⟨ks', hy⟩
    rcases desc_between ho (reach_desc hx) (reach_desc hy) with hd | hd
    · exact h1 hd
    · exact h2 hd

theorem step_apart {h : JHeap} (hi : WInv h) (op : JOp) (ha : op.ArgsOk h) {a b : Ref}
    (h1 : a < h.next) (h2 : b < h.next) (hA : Apart h a b) : Apart (op.step h) a b := by
  rw [apart_iff hi.ord] at hA
  rw [apart_iff (step_winv hi op ha).ord]
  exact ⟨fun hd => hA.1 (step_desc hi op ha hd h2), fun hd => hA.2 (step_desc hi op ha hd h1)⟩

theorem Later.spec {h h' : JHeap} (hl : Later h h') (hi : WInv h) :
    WInv h' ∧ h.next ≤ h'.next ∧
    ∀ a b, a < h.next → b < h.next → Apart h a b → Apart h' a b := by
  induction hl with
  | refl => exact ⟨hi, Nat.le_refl _, fun _ _ _ _ h => h⟩
  | call op hl ha ih =>
    obtain ⟨h1, h2, h3⟩ := ih
    exact ⟨step_winv h1 op ha, Nat.le_trans h2 (step_next h1 op ha), fun a b ha' hb hA =>
      step_apart h1 op ha (by omega) (by omega) (h3 a b ha' hb hA)⟩

/-- A call on an instance of one document does not change another. -/
theorem step_val_apart {h : JHeap} (hi : WInv h) (op : JOp) (ha : op.ArgsOk h) {a b r : Ref}
    (hb : b < h.next) (hA : Apart h a b) (hr : op.receiver = some r) (hw : Within h a r) :
    val (op.step h) b = val h b := by
  have hs := step_receiver hi op ha hr
  obtain ⟨ks, hks⟩ := hw
  cases hs with
  | noop h1 => exact h1.val hi.ord hb
  | @did m v g hd _ h1 =>
    refine h1.val_other hi.ord hb fun hbm => ?_
    exact hA m (desc_reach (desc_trans (reach_desc hks) hd)) (desc_reach hbm)

end Jschon
