import Verif.Spec.Put
import Verif.Proof.Cut
import Verif.Proof.Later
import Verif.Proof.Patch
import Verif.Proof.Unresolved

/-!
# What the addition of a subschema does
-/

namespace Jschon
open Spec

theorem plusKw_key {a : SubPut} {c : Nat} (kw : Kw) : (plusKw a c kw).key = kw.key := by cases kw <;> rfl

theorem plusKw_dynamic {a : SubPut} {c : Nat} {kw : Kw} {t : Nat} {f : String} {d : Bool}
    (h : plusKw a c kw = .dynamicRef t f d) : kw = .dynamicRef t f d := by
  cases kw <;> simp_all [plusKw]

theorem dset_plus {c : Nat} {k : String} : ∀ {ms : List (String × Nat)}, (dkeys ms).Nodup →
    dset k c ms = plusMember c (.member k) ms := by
  intro ms hn
  simp only [plusMember]
  rcases dset_cases (k := k) (v := c) (d := ms) with ⟨h1, h2⟩ | ⟨l, x, r, h1, rfl, h3⟩
  · rw [h2]; exact (if_neg h1).symm
  · rw [h3, if_pos (by simp)]
    have same : ∀ {l : List (String × Nat)}, k ∉ dkeys l → (l.map fun m => if m.1 = k then (k, c) else m) = l := by
      intro l hl
      have : ∀ m ∈ l, (if m.1 = k then (k, c) else m) = id m := fun m hm =>
        if_neg fun e => hl (List.mem_map.2 ⟨m, hm, e⟩)
      rw [List.map_congr_left this, List.map_id]
    have hr : k ∉ dkeys r := by
      simp only [dkeys, List.map_append, List.map_cons, List.nodup_append, List.nodup_cons] at hn
      exact hn.2.1.1
    simp only [List.map_append, List.map_cons, if_true, same h1, same hr]

theorem set_plus {c i : Nat} : ∀ {cs : List Nat}, i < cs.length → cs.set i c = plusItem c (.index i) cs := by
  intro cs hi
  simp only [plusItem]
  rw [List.set_eq_take_append_cons_drop, if_pos hi]

/-- The data with the addition. -/
def plusData (a : SubPut) (c : Nat) : JData → JData
  | .arr cs => .arr (plusItem c a cs)
  | .obj ms => .obj (plusMember c a ms)
  | d => d

theorem forms_plus [dia : Dialect] : ∀ p ∈ kwForms (dia := dia),
    (∀ f, p.2 = .many f → ∀ a c cs, plusKw a c (f cs) = f (plusItem c a cs)) ∧
    (∀ f, p.2 = .named f → ∀ a c ms, plusKw a c (f ms) = f (plusMember c a ms)) ∧
    (∀ f g, p.2 = .either f g → ∀ a c, (∀ cs, plusKw a c (g cs) = g (plusItem c a cs)) ∧ ∀ x, plusKw a c (f x) = f x) := by
  intro p hp
  cases dia <;> simp only [kwForms, commonForms, List.mem_append, List.mem_cons, List.not_mem_nil, or_false] at hp
  all_goals
    rcases hp with hp | hp
    all_goals
      repeat' (first | (rcases hp with rfl | hp) | subst hp)
    all_goals
      refine ⟨fun f h => ?_, fun f h => ?_, fun f g h => ?_⟩
      all_goals first | (cases h; intro a c cs; rfl) | (cases h; exact fun a c => ⟨fun _ => rfl, fun _ => rfl⟩) | (simp [staticForm, annotForm, numForm, defsForm] at h)

section
variable [dia : Dialect] {E : CEnv} {cid : String} {w : World}

/-- The world with other data of a holder of subschemas. -/
theorem plus_obj (ok : WOk w) (kinds : KwsOf Kinded w) {h' : JHeap} (ho' : Ord h') {s : Nat} {key : String} {o : KwObj}
    (a : SubPut) (c : Nat)
    (hm : (key, o) ∈ w.keywords s) (hh : Holds o.shape) (hs : w.isSchema o.json = false)
    (hdata : ∀ x, x ≠ o.json → h'.data x = w.heap.data x)
    (hjson : h'.data o.json = plusData a c (w.heap.data o.json)) :
    (∀ x, ({ w with heap := h' } : World).schemaObj E x =
      if x = s then plusObj key a c (w.schemaObj E x) else w.schemaObj E x) ∧
    (∀ x kv kw, kv ∈ w.keywords x → ({ w with heap := h' } : World).kwOf E kv = some kw → kw.key = kv.1) := by
  have shapes : ∀ x kv, kv ∈ w.keywords x → KwOk w kv.2.shape kv.2.json := fun x kv hk => by
    obtain ⟨i, hi, hm⟩ := keywords_info hk
    exact (ok.shapes x i kv hi hm).1
  have named : ∀ x kv kw, kv ∈ w.keywords x → w.kwOf E kv = some kw → kw.key = kv.1 :=
    fun x kv kw h e => (kwOf_fits ok.ord ok.keys e).1
  obtain ⟨hsc, ms0, hd0, hm0⟩ := keywords_member ok hm
  have hkid := ok.ord.kid s o.json (by rw [hd0]; exact List.mem_map.2 ⟨_, hm0, rfl⟩)
  have hne : ∀ {x}, w.isSchema x = true → x ≠ o.json := by
    rintro x hx rfl; rw [hs] at hx; cases hx
  have hkw : ∀ x, ({ w with heap := h' } : World).keywords x = w.keywords x := fun x => rfl
  have hown : ({ w with heap := h' } : World).kwOf E (key, o) = (w.kwOf E (key, o)).map (plusKw a c) := by
    have h1 := shapes s _ hm
    have hkind := kinds s _ hm
    have hcut := fun p hp => forms_plus (dia := dia) p hp
    simp only [Kinded] at hkind
    simp only [World.kwOf]
    have dead : key = "$defs" ∨ o.shape ∉ ([.subschema, .arrayOfSubschemas, .objectOfSubschemas, .subschemaOrArray] : List KwShape) →
        key = "$defs" := by
      rintro (h | h)
      · exact h
      · rcases hh with hh | hh | hh <;> simp [hh] at h
    have defs : key = "$defs" → ({ w with heap := h' } : World).kwOfForm E key o (dlookup key kwForms) =
        (w.kwOfForm E key o (dlookup key kwForms)).map (plusKw a c) := by
      rintro rfl
      have : dlookup "$defs" (kwForms (dia := dia)) = some defsForm := by cases dia <;> rfl
      rw [this]; rfl
    cases hf : dlookup key kwForms with
    | none => rw [hf] at hkind; rw [← hf]; exact defs (dead hkind)
    | some f =>
      have hc3 := hcut _ (dlookup_mem hf)
      rw [hf] at hkind
      cases f with
      | one f => simp only [] at hkind; rcases hh with hh | hh | hh <;> rw [hh] at hkind <;> cases hkind
      | many f =>
        simp only [] at hkind
        simp only [hkind, KwOk] at h1
        simp only [World.kwOfForm, hjson]
        rcases h1 with ⟨-, cs, b, -⟩ | ⟨-, t, b⟩
        · simp only [b, plusData, Option.map_some, hc3.1 f rfl]
        · simp only [b, plusData, Option.map_none]
      | named f =>
        simp only [] at hkind
        simp only [hkind, KwOk] at h1
        obtain ⟨-, ms, b, -⟩ := h1
        simp only [World.kwOfForm, hjson, b, plusData, Option.map_some, hc3.2.1 f rfl]
      | either f g =>
        simp only [] at hkind
        simp only [hkind, KwOk] at h1
        simp only [World.kwOfForm, hjson]
        rcases h1 with t | ⟨-, cs, b, -⟩ | ⟨-, t, b⟩
        · rw [hs] at t; cases t
        · simp only [b, plusData, Option.map_some, (hc3.2.2 f g rfl a c).1]
        · simp only [b, plusData, Option.map_some]
          rw [(hc3.2.2 f g rfl a c).2]
      | _ => rw [← hf]; exact defs (dead hkind)
  have hrest : ∀ x kv, kv ∈ w.keywords x → kv.2.json ≠ o.json →
      ({ w with heap := h' } : World).kwOf E kv = w.kwOf E kv := by
    rintro x ⟨k, p⟩ hkv hj
    have h1 := shapes x _ hkv
    have hkind := kinds x _ hkv
    simp only [Kinded] at hkind
    simp only [World.kwOf]
    simp only [] at h1 hj
    have plain : ∀ f, p.shape ∉ ([.subschema, .arrayOfSubschemas, .objectOfSubschemas, .subschemaOrArray] : List KwShape) →
        ({ w with heap := h' } : World).kwOfForm E k p f = w.kwOfForm E k p f := fun f hs' => by
      have hno : NoSchema w p.json := by
        simp only [List.mem_cons, List.not_mem_nil, or_false, not_or] at hs'
        unfold KwOk at h1
        split at h1 <;> first | exact h1 | (rename_i h; simp [h] at hs')
      have hnd : ∀ y, Desc w.heap p.json y → y ≠ o.json := by
        rintro y hy rfl
        rcases desc_tail hy with e | ⟨q, h2, h3⟩
        · exact hj e
        · have hq := (ok.ord.kid q _ h3).2.2
          rw [hkid.2.2] at hq
          cases hq
          have := hno s h2
          rw [hsc] at this
          cases this
      exact kwOfForm_congr (w' := { w with heap := h' }) (hdata _ hj)
        (val_congr ok.ord ho' (fun y => Desc w.heap p.json y) (fun y hy => hdata y (hnd y hy))
          (fun _ hy c hc => desc_trans hy (.step hc .refl)) _ .refl) f
    have defs : k = "$defs" → ({ w with heap := h' } : World).kwOfForm E k p (dlookup k kwForms) =
        w.kwOfForm E k p (dlookup k kwForms) := by
      rintro rfl
      have : dlookup "$defs" (kwForms (dia := dia)) = some defsForm := by cases dia <;> rfl
      rw [this]; rfl
    cases hf : dlookup k kwForms with
    | none =>
      rw [hf] at hkind
      rcases hkind with h | h
      · rw [← hf]; exact defs h
      · exact plain _ h
    | some f =>
      rw [hf] at hkind
      cases f with
      | one f => rfl
      | many f => simp only [World.kwOfForm, hdata _ hj]
      | named f => simp only [World.kwOfForm, hdata _ hj]
      | either f g => simp only [World.kwOfForm, hdata _ hj]
      | _ =>
        rcases hkind with h | h
        · rw [← hf]; exact defs h
        · exact plain _ h
  have owner : ∀ x kv, kv ∈ w.keywords x → kv.2.json = o.json → x = s ∧ kv = (key, o) := by
    rintro x ⟨k, p⟩ hkv hj
    obtain ⟨hxs, ms1, hd1, hm1⟩ := keywords_member ok hkv
    have hp1 := (ok.ord.kid x p.json (by rw [hd1]; exact List.mem_map.2 ⟨_, hm1, rfl⟩)).2.2
    simp only [] at hj
    rw [hj, hkid.2.2] at hp1
    cases hp1
    exact ⟨rfl, keywords_unique ok hkv hm (.inr hj)⟩
  refine ⟨fun x => ?_, fun x kv kw hkv he => ?_⟩
  · by_cases hxs : x = s
    · subst hxs
      rw [if_pos rfl]
      simp only [World.schemaObj, hdata x (hne hsc), hd0, hkw, plusObj, SchemaObj.obj.injEq]
      refine filterMap_map fun kv hkv => ?_
      by_cases hj : kv.2.json = o.json
      · cases keywords_unique ok hkv hm (.inr hj)
        rw [hown]
        cases he : w.kwOf E (key, o) with
        | none => rfl
        | some kw => simp only [Option.map_some, named x _ kw hkv he, if_true]
      · rw [hrest x kv hkv hj]
        cases he : w.kwOf E kv with
        | none => rfl
        | some kw =>
          simp only [Option.map_some, named x _ kw hkv he]
          rw [if_neg]
          intro e
          exact hj (by rw [keywords_unique ok hkv hm (.inl e)])
    · rw [if_neg hxs]
      have hkws : (w.keywords x).filterMap (({ w with heap := h' } : World).kwOf E) = (w.keywords x).filterMap (w.kwOf E) := by
        have := filterMap_map (l := w.keywords x) (f := w.kwOf E) (f' := ({ w with heap := h' } : World).kwOf E) (g := id)
          fun kv hkv => by
            rw [hrest x kv hkv fun e => hxs (owner x kv hkv e).1]
            cases w.kwOf E kv <;> rfl
        rw [this, List.map_id]
      simp only [World.schemaObj, hkw, hkws]
      by_cases hxj : x = o.json
      · subst hxj
        rw [hjson]
        cases w.heap.data o.json <;> rfl
      · rw [hdata x hxj]
  · by_cases hj : kv.2.json = o.json
    · obtain ⟨rfl, rfl⟩ := owner x kv hkv hj
      rw [hown] at he
      obtain ⟨kw', h1, rfl⟩ := Option.map_eq_some_iff.1 he
      rw [plusKw_key]
      exact named _ _ _ hkv h1
    · rw [hrest x kv hkv hj] at he
      exact named x kv kw hkv he

/-- What one addition does. -/
theorem put_spec (ok : WOk w) (kinds : KwsOf Kinded w) (hE : CEnvOk E) (hk : KindedEnv E) {v : Value} (hv : v.WF)
    {s : Nat} {key : String} {o : KwObj} (hm : (key, o) ∈ w.keywords s) (hs : w.isSchema o.json = false)
    {a : SubPut} {w2 : World} {r : Except Exc Nat} (h : putSubschema E o.json a v w = some (w2, r)) :
    ∃ w1, newSchema E (w.cacheid s) none none (some o.json) (some (a.key w o.json)) v w = some (w1, r) ∧
      SPost w w1 (w.cacheid s) (some o.json) (some (a.key w o.json)) v r ∧ KwsOf Kinded w1 ∧
      (∀ e, r = .error e → w2 = w1) ∧
      ∀ c, r = .ok c → (∃ h2, w2 = { w1 with heap := h2 }) ∧
        EditW w1.heap w2.heap o.json (plusData a c (w1.heap.data o.json)) ∧
        ∀ k x, ChildD (plusData a c (w1.heap.data o.json)) k x → w2.heap.key x = some k := by
  obtain ⟨hsc, ms0, hd0, hm0⟩ := keywords_member ok hm
  have hkid := ok.ord.kid s o.json (by rw [hd0]; exact List.mem_map.2 ⟨_, hm0, rfl⟩)
  have hcid : ((w.heap.parent o.json).map w.cacheid).getD "" = w.cacheid s := by rw [hkid.2.2]; rfl
  have pre : SPre w (w.cacheid s) none (some o.json) := .child ok hkid.2.1 hs hkid.2.2 hsc rfl
  have post : ∀ {k : String} {w1 r1}, newSchema E (w.cacheid s) none none (some o.json) (some k) v w = some (w1, r1) →
      SPost w w1 (w.cacheid s) (some o.json) (some k) v r1 ∧ KwsOf Kinded w1 := fun h1 =>
    ⟨(works hE v hv).1 _ _ _ _ _ _ _ _ pre h1, (newSchema_kw hk.classes _ _ _ _ _ v _ _ _ kinds h1).1⟩
  have old : ∀ {w1 : World}, Grow w w1 → ∀ x ∈ (w.heap.data o.json).kids, o.json < x ∧ x < w1.heap.next ∧
      w1.heap.parent x = some o.json := fun g x hx => by
    have := ok.ord.kid _ _ hx
    exact ⟨this.1, Nat.lt_of_lt_of_le this.2.1 g.le, by rw [g.ext.parent this.2.1, this.2.2]⟩
  have fresh : ∀ {x}, x ∈ (w.heap.data o.json).kids → x ≠ w.heap.next := by
    rintro x hx rfl
    have := (ok.ord.kid _ _ hx).2.1
    omega
  unfold putSubschema at h
  rw [hcid] at h
  simp only [] at h
  split at h
  · rename_i cs hd
    have hkey : SubPut.key w o.json .item = natStr cs.length := by simp only [SubPut.key, hd]
    rw [hkey]
    simp only [M.andThen] at h
    cases h1 : newSchema E (w.cacheid s) none none (some o.json) (some (natStr cs.length)) v w with
    | none => rw [h1] at h; cases h
    | some p =>
      obtain ⟨w1, r1⟩ := p
      rw [h1] at h
      obtain ⟨p1, p2⟩ := post h1
      cases r1 with
      | error e =>
        cases h
        exact ⟨_, rfl, p1, p2, fun _ _ => rfl, fun c hc => by cases hc⟩
      | ok c =>
        cases h
        obtain ⟨rfl, -⟩ := p1.ret c rfl
        have hd1 : w1.heap.data o.json = .arr cs := by rw [p1.grow.ext.data hkid.2.1, hd]
        have e : plusData .item w.heap.next (w1.heap.data o.json) = .arr (cs ++ [w.heap.next]) := by rw [hd1]; rfl
        rw [hd] at old fresh
        have hold := old p1.grow
        have hck : ∀ k x, ChildD (.arr (cs ++ [w.heap.next])) k x → w1.heap.key x = some k := by
          rintro k x ⟨n, rfl, hn⟩
          rcases Nat.lt_or_ge n cs.length with hl | hl
          · rw [List.getElem?_append_left hl] at hn
            exact p1.ok.keys.key o.json _ _ (by unfold Child; rw [hd1]; exact ⟨n, rfl, hn⟩)
          · rw [List.getElem?_append_right hl] at hn
            cases hn' : n - cs.length with
            | zero =>
              rw [hn'] at hn
              cases hn
              have : n = cs.length := by omega
              rw [p1.key, this]
            | succ m => rw [hn'] at hn; cases hn
        refine ⟨w1, rfl, p1, p2, ?_, ?_⟩
        · intro e he; cases he
        intro c hc
        cases hc
        rw [e]
        have hnd : (cs ++ [w.heap.next]).Nodup := by
          refine List.nodup_append.2 ⟨?_, by simp, ?_⟩
          · have := ok.ord.nodup o.json
            rw [hd] at this
            exact this
          · rintro a ha b hb rfl
            exact fresh ha (List.mem_singleton.1 hb)
        have A := assign_spec p1.ok.ord (m := o.json) (Nat.lt_of_lt_of_le hkid.2.1 p1.grow.le)
          (d := .arr (cs ++ [w.heap.next]))
          (by
            intro x hx
            simp only [JData.kids, List.mem_append, List.mem_singleton] at hx
            rcases hx with hx | rfl
            · exact hold x hx
            · exact ⟨hkid.2.1, p1.lt, p1.parent⟩) hnd
          (by intro ms hms; cases hms)
          (by
            intro l hl x hx
            cases hl
            obtain ⟨n, hn⟩ := List.getElem?_of_mem hx
            exact ⟨natStr n, n, hck _ _ ⟨n, rfl, hn⟩, pyInt_natStr n⟩)
        exact ⟨⟨_, rfl⟩, A.1, fun k x hx => (A.2.1 x).trans (hck k x hx)⟩
  · rename_i i cs hd
    split at h
    case isFalse => cases h
    rename_i hi
    have hkey : SubPut.key w o.json (.index i) = natStr i := rfl
    rw [hkey]
    simp only [M.andThen] at h
    cases h1 : newSchema E (w.cacheid s) none none (some o.json) (some (natStr i)) v w with
    | none => rw [h1] at h; cases h
    | some p =>
      obtain ⟨w1, r1⟩ := p
      rw [h1] at h
      obtain ⟨p1, p2⟩ := post h1
      cases r1 with
      | error e =>
        cases h
        exact ⟨_, rfl, p1, p2, fun _ _ => rfl, fun c hc => by cases hc⟩
      | ok c =>
        cases h
        obtain ⟨rfl, -⟩ := p1.ret c rfl
        have hd1 : w1.heap.data o.json = .arr cs := by rw [p1.grow.ext.data hkid.2.1, hd]
        have e : plusData (.index i) w.heap.next (w1.heap.data o.json) = .arr (cs.set i w.heap.next) := by
          rw [hd1, set_plus hi]; rfl
        rw [hd] at old fresh
        have hold := old p1.grow
        have hck : ∀ k x, ChildD (.arr (cs.set i w.heap.next)) k x → w1.heap.key x = some k := by
          rintro k x ⟨n, rfl, hn⟩
          rw [List.getElem?_set] at hn
          split at hn
          · rename_i hin
            subst hin
            cases hn
            rw [p1.key]
          · exact p1.ok.keys.key o.json _ _ (by unfold Child; rw [hd1]; exact ⟨n, rfl, hn⟩)
        refine ⟨w1, rfl, p1, p2, ?_, ?_⟩
        · intro e he; cases he
        intro c hc
        cases hc
        rw [e]
        have hnd : (cs.set i w.heap.next).Nodup := by
          have := ok.ord.nodup o.json
          rw [hd] at this
          exact nodup_set this (fun hx => fresh hx rfl) i
        have A := assign_spec p1.ok.ord (m := o.json) (Nat.lt_of_lt_of_le hkid.2.1 p1.grow.le)
          (d := .arr (cs.set i w.heap.next))
          (by
            intro x hx
            rcases List.mem_or_eq_of_mem_set hx with hx | rfl
            · exact hold x hx
            · exact ⟨hkid.2.1, p1.lt, p1.parent⟩) hnd
          (by intro ms hms; cases hms)
          (by
            intro l hl x hx
            cases hl
            obtain ⟨n, hn⟩ := List.getElem?_of_mem hx
            exact ⟨natStr n, n, hck _ _ ⟨n, rfl, hn⟩, pyInt_natStr n⟩)
        exact ⟨⟨_, rfl⟩, A.1, fun k x hx => (A.2.1 x).trans (hck k x hx)⟩
  · rename_i i cs hd
    split at h
    case isFalse => cases h
    rename_i hi
    have hkey : SubPut.key w o.json (.insert i) = natStr i := rfl
    rw [hkey]
    simp only [M.andThen] at h
    cases h1 : newSchema E (w.cacheid s) none none (some o.json) (some (natStr i)) v w with
    | none => rw [h1] at h; cases h
    | some p =>
      obtain ⟨w1, r1⟩ := p
      rw [h1] at h
      obtain ⟨p1, p2⟩ := post h1
      cases r1 with
      | error e =>
        cases h
        exact ⟨_, rfl, p1, p2, fun _ _ => rfl, fun c hc => by cases hc⟩
      | ok c =>
        obtain ⟨rfl, -⟩ := p1.ret c rfl
        have hd1 : w1.heap.data o.json = .arr cs := by rw [p1.grow.ext.data hkid.2.1, hd]
        have e : plusData (.insert i) w.heap.next (w1.heap.data o.json) = .arr (cs.insertIdx i w.heap.next) := by
          rw [hd1, insertIdx_split cs i hi]; rfl
        rw [hd] at old fresh
        have hold := old p1.grow
        have hnd : (cs.insertIdx i w.heap.next).Nodup := by
          have := ok.ord.nodup o.json
          rw [hd] at this
          exact nodup_insertIdx this (fun hx => fresh hx rfl) i
        have hck1 : ∀ n x, cs[n]? = some x → w1.heap.key x = some (natStr n) := fun n x hn =>
          p1.ok.keys.key o.json _ _ (by unfold Child; rw [hd1]; exact ⟨n, rfl, hn⟩)
        obtain ⟨A, A2, -⟩ := assign_spec p1.ok.ord (m := o.json) (Nat.lt_of_lt_of_le hkid.2.1 p1.grow.le)
          (d := .arr (cs.insertIdx i w.heap.next))
          (by
            intro x hx
            rcases mem_insertIdx_cases hx with rfl | hx
            · exact ⟨hkid.2.1, p1.lt, p1.parent⟩
            · exact hold x hx) hnd
          (by intro ms hms; cases hms)
          (by
            intro l hl x hx
            cases hl
            rcases mem_insertIdx_cases hx with rfl | hx
            · exact ⟨_, _, p1.key, pyInt_natStr i⟩
            · obtain ⟨n, hn⟩ := List.getElem?_of_mem hx
              exact ⟨natStr n, n, hck1 n x hn, pyInt_natStr n⟩)
        obtain ⟨s1, s2⟩ := shiftKeys_spec (A.ord p1.ok.ord) 1 ((cs.insertIdx i w.heap.next).drop (i + 1))
          (hnd.sublist (List.drop_sublist _ _))
          (by
            intro x hx
            refine ⟨by rw [A.next]; exact (A.kid x (List.mem_of_mem_drop hx)).2.1, ?_⟩
            exact A.kint _ rfl x (List.mem_of_mem_drop hx))
        simp only [s1, Except.map, Option.some.injEq, Prod.mk.injEq] at h
        obtain ⟨rfl, rfl⟩ := h
        refine ⟨w1, rfl, p1, p2, ?_, ?_⟩
        · intro e he; cases he
        intro c hc
        cases hc
        rw [e]
        refine ⟨⟨_, rfl⟩, A.shift s2 (fun c hc => List.mem_of_mem_drop hc), ?_⟩
        rintro k x ⟨j, rfl, hx⟩
        have hx1 := hx
        rw [List.getElem?_insertIdx] at hx1
        simp only []
        split at hx1
        · rename_i hj
          rw [s2.key_other x (by rw [mem_drop_iff hnd hx]; omega), A2]
          exact hck1 j x hx1
        · split at hx1
          · rename_i hj
            subst hj
            split at hx1
            · cases hx1
              rw [s2.key_other _ (by rw [mem_drop_iff hnd hx]; omega), A2, p1.key]
            · omega
          · rw [s2.key x ((mem_drop_iff hnd hx).2 (by omega)) (natStr (j - 1)) (j - 1 : Nat)
              (by rw [A2]; exact hck1 _ x hx1) (pyInt_natStr _)]
            congr 1
            rw [← intStr_nat]; congr 1; omega
  · rename_i k ms hd
    show ∃ w1, newSchema E (w.cacheid s) none none (some o.json) (some k) v w = some (w1, r) ∧ _
    simp only [M.andThen] at h
    cases h1 : newSchema E (w.cacheid s) none none (some o.json) (some k) v w with
    | none => rw [h1] at h; cases h
    | some p =>
      obtain ⟨w1, r1⟩ := p
      rw [h1] at h
      obtain ⟨p1, p2⟩ := post h1
      cases r1 with
      | error e =>
        cases h
        exact ⟨_, rfl, p1, p2, fun _ _ => rfl, fun c hc => by cases hc⟩
      | ok c =>
        cases h
        obtain ⟨rfl, -⟩ := p1.ret c rfl
        have hd1 : w1.heap.data o.json = .obj ms := by rw [p1.grow.ext.data hkid.2.1, hd]
        have e : plusData (.member k) w.heap.next (w1.heap.data o.json) = .obj (dset k w.heap.next ms) := by
          rw [hd1, dset_plus (ok.keys.nodup _ ms hd)]; rfl
        rw [hd] at old fresh
        have hold := old p1.grow
        have hck : ∀ k' x, (k', x) ∈ dset k w.heap.next ms → w1.heap.key x = some k' := by
          intro k' x hx
          rcases mem_dset hx with ⟨rfl, rfl⟩ | hx
          · exact p1.key
          · exact p1.ok.keys.key o.json _ _ (by unfold Child; rw [hd1]; exact hx)
        refine ⟨w1, rfl, p1, p2, ?_, ?_⟩
        · intro e he; cases he
        intro c hc
        cases hc
        rw [e]
        have A := assign_spec p1.ok.ord (m := o.json) (Nat.lt_of_lt_of_le hkid.2.1 p1.grow.le)
          (d := .obj (dset k w.heap.next ms))
          (by
            intro x hx
            obtain ⟨⟨k', x'⟩, hx', rfl⟩ := List.mem_map.1 hx
            rcases mem_dset hx' with ⟨rfl, rfl⟩ | hx'
            · exact ⟨hkid.2.1, p1.lt, p1.parent⟩
            · exact hold _ (List.mem_map.2 ⟨_, hx', rfl⟩))
          (by
            have := ok.ord.nodup o.json
            rw [hd] at this
            exact kids_dset_nodup this fun hx => fresh hx rfl)
          (by intro ms' h'; cases h'; exact dkeys_dset_nodup (ok.keys.nodup _ ms hd))
          (by intro l hl; cases hl)
          (by intro ms' h' k' x hx; cases h'; exact hck k' x hx)
        exact ⟨⟨_, rfl⟩, A.1, fun k' x hx => (A.2.1 x).trans (hck k' x hx)⟩
  · cases h

omit dia in
theorem plusData_kids {a : SubPut} {c : Nat} {d : JData} {x : Nat} (h : x ∈ (plusData a c d).kids) :
    x = c ∨ x ∈ d.kids := by
  cases d with
  | arr cs =>
    cases a with
    | item =>
      simp only [plusData, plusItem, JData.kids, List.mem_append, List.mem_singleton] at h
      exact h.symm
    | index i =>
      simp only [plusData, plusItem, JData.kids, List.mem_append, List.mem_cons] at h
      rcases h with h | h | h
      · exact .inr (List.mem_of_mem_take h)
      · exact .inl h
      · exact .inr (List.mem_of_mem_drop h)
    | insert i =>
      simp only [plusData, plusItem, JData.kids, List.mem_append, List.mem_cons] at h
      rcases h with h | h | h
      · exact .inr (List.mem_of_mem_take h)
      · exact .inl h
      · exact .inr (List.mem_of_mem_drop h)
    | member k => exact .inr h
  | obj ms =>
    cases a with
    | item => exact .inr h
    | index i => exact .inr h
    | insert i => exact .inr h
    | member k =>
      simp only [plusData, plusMember, JData.kids] at h
      obtain ⟨m, h1, rfl⟩ := List.mem_map.1 h
      split at h1
      · obtain ⟨m', h2, rfl⟩ := List.mem_map.1 h1
        split
        · exact .inl rfl
        · exact .inr (List.mem_map.2 ⟨_, h2, rfl⟩)
      · rcases List.mem_append.1 h1 with h2 | h2
        · exact .inr (List.mem_map.2 ⟨_, h2, rfl⟩)
        · rw [List.mem_singleton.1 h2]; exact .inl rfl
  | _ => exact .inr h

/-- The invariant holds after a change of the children of a holder of subschemas. -/
theorem holder_ok (ok : WOk w) {h' : JHeap} {s : Nat} {key : String} {o : KwObj} {d' : JData}
    (hm : (key, o) ∈ w.keywords s) (hh : Holds o.shape) (hs : w.isSchema o.json = false)
    (ord : Ord h') (keys : Keys h') (next : h'.next = w.heap.next) (parent : ∀ x, h'.parent x = w.heap.parent x)
    (data : ∀ x, h'.data x = if x = o.json then d' else w.heap.data x)
    (kids : ∀ x ∈ d'.kids, w.isSchema x = true ∨ x ∈ (w.heap.data o.json).kids)
    (form : (∀ cs, w.heap.data o.json = .arr cs → ∃ cs', d' = .arr cs') ∧
      (∀ ms, w.heap.data o.json = .obj ms → ∃ ms', d' = .obj ms') ∧
      ∀ t, w.heap.data o.json = .str t → d' = .str t) :
    WOk { w with heap := h' } := by
  obtain ⟨hsc, ms0, hd0, hm0⟩ := keywords_member ok hm
  have hkid := ok.ord.kid s o.json (by rw [hd0]; exact List.mem_map.2 ⟨_, hm0, rfl⟩)
  have hdata : ∀ x, x ≠ o.json → h'.data x = w.heap.data x := fun x hx => by rw [data, if_neg hx]
  have hjson : h'.data o.json = d' := by rw [data, if_pos rfl]
  have hne : ∀ {x}, w.isSchema x = true → x ≠ o.json := by
    rintro x hx rfl; rw [hs] at hx; cases hx
  refine ⟨ord, keys, fun x hx => ?_, fun x i hi => ?_, ok.caches, ok.cached,
    ok.uris, fun x p hx hp => ?_, fun x i kv hi hkv => ⟨?_, (ok.shapes x i kv hi hkv).2⟩, fun x cs hx hd => ?_⟩
  · show x < h'.next
    rw [next]; exact ok.dom x hx
  · have : w.isSchema x = true := by simp only [World.isSchema]; rw [show w.info x = some i from hi]; rfl
    simp only [hdata x (hne this)]
    exact ok.kws x i hi
  · have hp' : w.heap.parent x = some p := (parent x).symm.trans hp
    have := ok.ord.par x p hp'
    exact (ok.near x p hx hp').mono (w' := { w with heap := h' }) ok.ord
      (by have := ok.dom x hx; omega) (fun _ _ => rfl) (fun _ _ => rfl) (fun y _ => parent y)
  · have h1 := (ok.shapes x i kv hi hkv).1
    have hkv' : kv ∈ w.keywords x := by simp only [World.keywords]; rw [show w.info x = some i from hi]; exact hkv
    by_cases hj : kv.2.json = o.json
    · obtain ⟨hxs, ms1, hd1, hm1⟩ := keywords_member ok hkv'
      have hp1 := (ok.ord.kid x kv.2.json (by rw [hd1]; exact List.mem_map.2 ⟨_, hm1, rfl⟩)).2.2
      rw [hj, hkid.2.2] at hp1
      cases hp1
      cases keywords_unique ok hkv' hm (.inr hj)
      have hall : ∀ {d}, w.heap.data o.json = d → (∀ x ∈ d.kids, w.isSchema x = true) →
          ∀ x ∈ d'.kids, w.isSchema x = true := fun hd h2 x hx => by
        rcases kids x hx with hx | hx
        · exact hx
        · exact h2 x (hd ▸ hx)
      have harr : ∀ {cs}, w.heap.data o.json = .arr cs → (∀ c ∈ cs, w.isSchema c = true) →
          ∃ cs', h'.data o.json = .arr cs' ∧ ∀ c ∈ cs', w.isSchema c = true := fun hd h2 => by
        obtain ⟨cs', e⟩ := form.1 _ hd
        exact ⟨cs', hjson.trans e, fun c hc => hall hd h2 c (by rw [e]; exact hc)⟩
      have hstr : ∀ {t}, w.heap.data o.json = .str t → NoSchema w o.json →
          NoSchema { w with heap := h' } o.json ∧ ∃ t', h'.data o.json = .str t' := fun {t} hd h2 => by
        have hd' : h'.data o.json = .str t := hjson.trans (form.2.2 t hd)
        refine ⟨fun y hy => ?_, t, hd'⟩
        cases hy with
        | refl => exact hs
        | step hk _ => simp only [hd'] at hk; cases hk
      rcases hh with hh | hh | hh <;> simp only [hh, KwOk] at h1 ⊢
      · rcases h1 with ⟨-, cs, b, d⟩ | ⟨b, t, d⟩
        · exact .inl ⟨hs, harr b d⟩
        · exact .inr (hstr d b)
      · obtain ⟨-, ms, b, d⟩ := h1
        obtain ⟨ms', e⟩ := form.2.1 _ b
        refine ⟨hs, ms', hjson.trans e, fun kc hkc => ?_⟩
        refine hall b (fun x hx => ?_) kc.2 (by rw [e]; exact List.mem_map_of_mem (f := Prod.snd) hkc)
        obtain ⟨m, h3, rfl⟩ := List.mem_map.1 hx
        exact d m h3
      · rcases h1 with b | ⟨-, cs, b, d⟩ | ⟨b, t, d⟩
        · rw [hs] at b; cases b
        · exact .inr (.inl ⟨hs, harr b d⟩)
        · exact .inr (.inr (hstr d b))
    · have hnos : ∀ {j}, j = kv.2.json → NoSchema w j → NoSchema { w with heap := h' } j := by
        rintro j rfl hno y hy
        have hnd : ∀ y, Desc w.heap kv.2.json y → y ≠ o.json := by
          rintro y hy rfl
          rcases desc_tail hy with e | ⟨q, h2, h3⟩
          · exact hj e
          · have hq := (ok.ord.kid q _ h3).2.2
            rw [hkid.2.2] at hq
            cases hq
            have := hno s h2
            rw [hsc] at this
            cases this
        have : ∀ {b y}, Desc h' b y → Desc w.heap kv.2.json b → Desc w.heap kv.2.json y := fun {b y} hb => by
          induction hb with
          | refl => exact id
          | step hk _ ih =>
            intro hb
            rw [hdata _ (hnd _ hb)] at hk
            exact ih (desc_trans hb (.step hk .refl))
        exact hno y (this hy .refl)
      unfold KwOk at h1 ⊢
      simp only [hdata _ hj]
      split at h1
      · exact h1
      · rcases h1 with h1 | ⟨h1, h2⟩
        · exact .inl h1
        · exact .inr ⟨hnos rfl h1, h2⟩
      · exact h1
      · rcases h1 with h1 | h1 | ⟨h1, h2⟩
        · exact .inl h1
        · exact .inr (.inl h1)
        · exact .inr (.inr ⟨hnos rfl h1, h2⟩)
      · exact hnos rfl h1
  · simp only [hdata x (hne hx)] at hd
    exact ok.whole x cs hx hd

/-- The invariant holds after the addition of a schema to a holder of subschemas. -/
theorem put_ok (ok : WOk w) {h' : JHeap} {s : Nat} {key : String} {o : KwObj} {a : SubPut} {c : Nat}
    (hm : (key, o) ∈ w.keywords s) (hh : Holds o.shape) (hs : w.isSchema o.json = false) (hc : w.isSchema c = true)
    (e : EditW w.heap h' o.json (plusData a c (w.heap.data o.json)))
    (hck : ∀ k x, ChildD (plusData a c (w.heap.data o.json)) k x → h'.key x = some k) :
    WOk { w with heap := h' } := by
  refine holder_ok ok hm hh hs (e.ord ok.ord) ⟨fun r k x hx => ?_, fun r ms hr => ?_⟩ e.next e.parent e.data
    (fun x hx => ?_) ⟨fun cs hd => ⟨_, by rw [hd]; rfl⟩, fun ms hd => ⟨_, by rw [hd]; rfl⟩, fun t hd => by rw [hd]; rfl⟩
  · unfold Child at hx
    by_cases hr : r = o.json
    · subst hr
      rw [e.data, if_pos rfl] at hx
      exact hck k x hx
    · rw [e.data, if_neg hr] at hx
      refine (e.key_other x fun hx' => hr ?_).trans (ok.keys.key r k x hx)
      have h1 := (e.kid x hx').2.2
      rw [(ok.ord.kid r x (childD_kid hx)).2.2] at h1
      exact Option.some.inj h1
  · simp only [e.data] at hr
    split at hr
    · exact e.keys ms hr
    · exact ok.keys.nodup r ms hr
  · rcases plusData_kids hx with rfl | hx
    · exact .inl hc
    · exact .inr hx

omit dia in
theorem EditW.cold {h h' : JHeap} {m : Ref} {d : JData} (e : EditW h h' m d) (hc : Cold h) : Cold h' := fun x => by
  refine ⟨?_, ?_⟩
  · cases hv : h'.valC x with
    | none => rfl
    | some v => have := (e.val x v hv).1; rw [(hc x).1] at this; cases this
  · cases hv : h'.pathC x with
    | none => rfl
    | some v => have := e.path x v hv; rw [(hc x).2] at this; cases this

omit dia in
/-- A deletion keeps the invariants of instances that have no cached values. -/
theorem cut_cold {h : JHeap} (hi : JInv h) (hc : Cold h) {r : Nat} (hr : r < h.next) (c : Cut) (hf : c.Forward) :
    JInv ((c.op r).step h) ∧ Cold ((c.op r).step h) := by
  have same : ∀ {h' : JHeap}, h' = h → JInv h' ∧ Cold h' := by rintro _ rfl; exact ⟨hi, hc⟩
  cases c with
  | name k =>
    show JInv (delKey h r k).1 ∧ Cold (delKey h r k).1
    by_cases hx : ∃ ms, h.data r = .obj ms ∧ k ∈ dkeys ms
    · obtain ⟨ms, hd, hk⟩ := hx
      exact ⟨(delKey_spec hi.weak hr hd hk).2.inv hi trivial, (delKey_edit hi.weak hr hd hk).cold hc⟩
    · exact same (delKey_err fun ms hm hk => hx ⟨ms, hm, hk⟩).2
  | index i =>
    show JInv (delIdx h r i).1 ∧ Cold (delIdx h r i).1
    by_cases hx : ∃ cs n, h.data r = .arr cs ∧ pyPos cs.length i = some n
    · obtain ⟨cs, n, hd, hn⟩ := hx
      exact ⟨(delIdx_spec hi.weak hr hd hn).2.inv hi hf, (delIdx_edit hi.weak hr hd hn).cold hc⟩
    · refine same (delIdx_err fun cs hc => ?_).2
      cases hp : pyPos cs.length i with
      | none => rfl
      | some n => exact absurd ⟨cs, n, hc, hp⟩ hx

/-- The invariant holds after a deletion. -/
theorem cut_orderly (hw : Orderly w) {s : Nat} {key : String} {o : KwObj} {c : Cut} (hm : (key, o) ∈ w.keywords s)
    (hh : Holds o.shape) (hs : w.isSchema o.json = false) (hf : c.Forward) : Orderly (w.editJson (c.op o.json)) := by
  have hi := Cold.inv hw.cold hw.ok.ord hw.ok.keys
  have hr := (keywords_kid hw.ok hm).2
  obtain ⟨-, h2, h3, h4⟩ := cut_step hi.weak hr c
  obtain ⟨a1, a2⟩ := cut_cold hi hw.cold hr c hf
  exact ⟨holder_ok hw.ok hm hh hs a1.ord a1.keys h2 h3 h4 (fun x hx => .inr (c.data_kids _ x hx))
    ⟨fun cs hd => ⟨_, by rw [hd]; rfl⟩, fun ms hd => ⟨_, by rw [hd]; rfl⟩, fun t hd => by rw [hd]; rfl⟩, a2, hw.kinds⟩

theorem put_keyword {w1 : World} {cid : String} {par : Option Nat} {k : Option String} {v : Value}
    {r : Except Exc Nat} (ok : WOk w) {s : Nat} {key : String} {o : KwObj} (hm : (key, o) ∈ w.keywords s)
    (hs : w.isSchema o.json = false) (p : SPost w w1 cid par k v r) :
    (key, o) ∈ w1.keywords s ∧ w1.isSchema o.json = false := by
  have hx : s < w.heap.next := ok.dom s (keywords_member ok hm).1
  refine ⟨?_, ?_⟩
  · simp only [World.keywords, p.grow.info s hx id]; exact hm
  · rw [p.grow.isSchema (keywords_kid ok hm).2]; exact hs

theorem Spec.PutHistory.orderly (h : PutHistory w) : Orderly w := by
  induction h with
  | start => exact ⟨wok_empty, fun x => ⟨rfl, rfl⟩, fun s kv hk => by cases hk⟩
  | new _ hE hk hd hu h ih =>
    exact ⟨(newDocument_spec hE hd (.doc ih.ok hu) h).ok, (newDocument_nc _ _ _ ih.cold h).1,
      (newDocument_kw hk.classes _ _ _ ih.kinds h).1⟩
  | get _ hE hk h ih =>
    exact ⟨(getSchema_spec hE ih.ok h).1, (getSchemaWith_nc (fun _ _ _ _ => newDocument_nc) _ _ _ ih.cold h).1,
      (getSchemaWith_kw (fun _ _ _ _ => newDocument_kw hk.classes) _ _ _ ih.kinds h).1⟩
  | @put E s key o a v w w' r _ hE hk hv hm hh hs h ih =>
    obtain ⟨w1, h1, p, k1, he, hc⟩ := put_spec ih.ok ih.kinds hE hk hv hm hs h
    have c1 := (newSchema_nc _ _ _ _ _ _ _ _ _ ih.cold h1).1
    cases r with
    | error e => rw [he e rfl]; exact ⟨p.ok, c1, k1⟩
    | ok c =>
      obtain ⟨⟨h2, rfl⟩, e, hck⟩ := hc c rfl
      obtain ⟨rfl, -⟩ := p.ret c rfl
      obtain ⟨hm1, hs1⟩ := put_keyword ih.ok hm hs p
      exact ⟨put_ok p.ok hm1 hh hs1 p.isSchema e hck, e.cold c1, k1⟩
  | cut c _ hm hh hs hf ih => exact cut_orderly ih hm hh hs hf

theorem Spec.PutHistory.spec (h : PutHistory w) : WOk w ∧ KwsOf Kinded w := ⟨h.orderly.ok, h.orderly.kinds⟩

theorem Spec.KHistory.put (h : KHistory w) : PutHistory w := by
  induction h with
  | start => exact .start
  | new _ hE hk hd hu h ih => exact .new ih hE hk hd hu h
  | get _ hE hk h ih => exact .get ih hE hk h

/-- All keywords are seen. -/
theorem live_named (ok : WOk w) {h' : JHeap} (hd : ∀ x, w.isSchema x = true → h'.data x = w.heap.data x)
    (named : ∀ x kv kw, kv ∈ w.keywords x → ({ w with heap := h' } : World).kwOf E kv = some kw → kw.key = kv.1) :
    ({ w with heap := h' } : World).liveStore E cid = ({ w with heap := h' } : World).store E cid := by
  have : ({ w with heap := h' } : World).liveObj E = ({ w with heap := h' } : World).schemaObj E := by
    funext x
    unfold World.liveObj
    cases ho : ({ w with heap := h' } : World).schemaObj E x with
    | bool b => rfl
    | obj kws =>
      simp only [SchemaObj.obj.injEq]
      refine List.filter_eq_self.2 fun kw hkw => ?_
      cases kw with
      | static k v =>
        have hmem : ∃ kv ∈ w.keywords x, ({ w with heap := h' } : World).kwOf E kv = some (.static k v) := by
          unfold World.schemaObj at ho
          split at ho
          · cases ho
          · cases ho; exact List.mem_filterMap.1 hkw
        obtain ⟨kv, hm, e⟩ := hmem
        obtain ⟨hs, ms, hd0, hc⟩ := keywords_member ok hm
        have hk : k = kv.1 := named x kv _ hm e
        rw [← hk] at hc
        have : (dlookup k ms).isSome = true := dlookup_isSome.2 (List.mem_map.2 ⟨_, hc, rfl⟩)
        simp [Kw.seen, hd x hs, hd0, this]
      | _ => rfl
  unfold World.liveStore
  rw [this]
  rfl

omit dia in
theorem nearest_parent {w w' : World} (hi : w'.info = w.info) (hp : ∀ x, w'.heap.parent x = w.heap.parent x)
    {attr : SInfo → Option Uri} : ∀ n s, w'.nearest attr n s = w.nearest attr n s
  | 0, s => rfl
  | n + 1, s => by simp only [World.nearest, hi, hp, nearest_parent hi hp n]

theorem lookup_same {w w' : World} (hi : w'.info = w.info) (hc : w'.caches = w.caches) {b f : String}
    (hf : NoPointer E f) : (w'.store E cid).lookup b f = (w.store E cid).lookup b f := by
  have hs : ∀ x, w'.isSchema x = w.isSchema x := fun x => by simp only [World.isSchema, hi]
  simp only [World.store]
  cases hu : E.lib.resolve (E.lib.ofText ("#" ++ f)) (E.lib.ofText b) with
  | none => rfl
  | some u =>
    simp only [getSchemaWith_split]
    have e1 : cacheGet w'.caches cid u = cacheGet w.caches cid u := by rw [hc]
    have e2 : baseCached w' cid u = baseCached w cid u := by simp only [baseCached, hc]
    rw [e1, e2]
    cases cacheGet w.caches cid u with
    | some s => rfl
    | none =>
      cases baseCached w cid u with
      | none =>
        simp only [loadSchema, Bind.bind, M.andThen, M.ofExcept, M.raise]
        cases loadJson E.lib E.sources u.noFragment <;> rfl
      | some s => simp only [getSchemaEnd_split u s _ (fun g => hf b u g hu), hs]

/-- Evaluation after an addition. -/
theorem put_evaluate (ok : WOk w) (kinds : KwsOf Kinded w) {h' : JHeap} {s : Nat} {key : String} {o : KwObj}
    {a : SubPut} {c : Nat}
    (hm : (key, o) ∈ w.keywords s) (hh : Holds o.shape) (hs : w.isSchema o.json = false)
    (e : EditW w.heap h' o.json (plusData a c (w.heap.data o.json)))
    (hdyn : ∀ x kws u f, (w.store E cid).obj x = .obj kws → .dynamicRef u f true ∈ kws → NoPointer E f)
    {env : Env} {n : Nat} {x : SRef} {i : Inst} :
    Jschon.evaluate (({ w with heap := h' } : World).liveStore E cid) env n x i =
      Jschon.evaluate (Store.plus (w.store E cid) s key a c) env n x i := by
  have hne : ∀ {x}, w.isSchema x = true → x ≠ o.json := by
    rintro x hx rfl; rw [hs] at hx; cases hx
  obtain ⟨hobj, named⟩ := plus_obj (E := E) ok kinds (e.ord ok.ord) a c hm hh hs
    (fun x hx => by rw [e.data, if_neg hx]) (by rw [e.data, if_pos rfl])
  rw [live_named ok (fun x hx => by rw [e.data, if_neg (hne hx)]) named]
  refine evaluate_island (P := fun _ => True) ⟨fun _ _ _ _ _ _ _ _ => trivial, fun _ _ _ _ _ _ _ _ _ _ _ _ _ => trivial⟩
    ⟨fun x _ => hobj x, fun x kws u f _ ho hmem y _ => ⟨?_, fun b _ => ?_⟩⟩ trivial
  · show ((({ w with heap := h' } : World)).baseUri y).map Uri.str = (w.baseUri y).map Uri.str
    simp only [World.baseUri]
    rw [nearest_parent (w := w) (w' := { w with heap := h' }) rfl e.parent]
  · have : ∃ kws', (w.store E cid).obj x = .obj kws' ∧ .dynamicRef u f true ∈ kws' := by
      simp only [Store.plus] at ho
      split at ho
      · cases hw : (w.store E cid).obj x with
        | bool b => rw [hw] at ho; cases ho
        | obj kws1 =>
          rw [hw] at ho
          cases ho
          obtain ⟨kw, h1, h2⟩ := List.mem_map.1 hmem
          refine ⟨kws1, rfl, ?_⟩
          split at h2
          · rw [← plusKw_dynamic h2]; exact h1
          · rw [← h2]; exact h1
      · exact ⟨kws, ho, hmem⟩
    obtain ⟨kws', h1, h2⟩ := this
    exact lookup_same (w := w) (w' := { w with heap := h' }) rfl rfl (hdyn x kws' u f h1 h2)

end

end Jschon
