import Verif.Proof.Did
import Verif.Model.Output
import Verif.Spec.Results

/-!
# Discarded results, locations and outputs
-/

namespace Jschon

open Spec

/-! ## No result below is discarded -/

/-- `P` holds at every result below this one. -/
inductive Below (P : RInfo → Prop) : RNode → Prop
  | mk {info cs} : (∀ e ∈ cs, P e.2.info) → (∀ e ∈ cs, Below P e.2) → Below P (.mk info cs)

theorem Below.kids {P : RInfo → Prop} {r : RNode} (h : Below P r) :
    ∀ e ∈ r.children, P e.2.info ∧ Below P e.2 := by
  cases h with
  | mk h1 h2 => exact fun e he => ⟨h1 e he, h2 e he⟩

theorem Below.intro {P : RInfo → Prop} {r : RNode} (h : ∀ e ∈ r.children, P e.2.info ∧ Below P e.2) :
    Below P r := by
  cases r; exact .mk (fun e he => (h e he).1) (fun e he => (h e he).2)

theorem Below.of_children {P : RInfo → Prop} {r r' : RNode} (h : Below P r)
    (hc : r'.children = r.children) : Below P r' := .intro (by rw [hc]; exact h.kids)

theorem Below.setChild {P : RInfo → Prop} {r c : RNode} {k : String × List String} (h : Below P r)
    (hc : Below P c) (hp : P c.info) : Below P (r.setChild k c) := by
  refine .intro fun e he => ?_
  rcases mem_cset he with rfl | he
  · exact ⟨hp, hc⟩
  · exact h.kids e he

theorem Below.delChild {P : RInfo → Prop} {r : RNode} {k : String × List String} (h : Below P r) :
    Below P (r.delChild k) := .intro fun e he => h.kids e (mem_cerase he)

theorem Below.fresh {P : RInfo → Prop} {r : RNode} {i : Inst} {k : String} {s : SRef} :
    Below P (r.fresh i k s) := .intro (by simp)

/-- Not discarded. -/
def Kept (info : RInfo) : Prop := info.discard = false

/-- Inserting a result and then deleting it if it is discarded. -/
theorem Below.insert {r c : RNode} {k : String × List String} (h : Below Kept r) (hc : Below Kept c) :
    Below Kept (if c.info.discard then (r.setChild k c).delChild k else r.setChild k c) := by
  cases hd : c.info.discard with
  | true =>
    simp only [if_true]
    have : (r.setChild k c).delChild k = r.delChild k := by
      simp only [RNode.setChild, RNode.delChild, RNode.info_mk, RNode.children_mk, cerase_cset]
    rw [this]; exact h.delChild
  | false => exact h.setChild hc hd

def RecKept (rec : Rec) : Prop := ∀ sc s i r r', Below Kept r → rec sc s i r = some r' → Below Kept r'

theorem did_kept {rec : Rec} (hrec : RecKept rec) {c c' : RNode} (hc : Below Kept c)
    (h : KwDid rec c c') : Below Kept c' := by
  induction h with
  | refl => exact hc
  | annotate _ _ ih => exact ih.of_children rfl
  | fail _ _ ih => exact ih.of_children rfl
  | pass_ _ ih => exact ih.of_children rfl
  | noassert _ ih => exact ih.of_children rfl
  | setDiscard _ ih => exact ih.of_children rfl
  | setRef _ _ ih => exact ih.of_children rfl
  | eval _ hr ih => exact hrec _ _ _ _ _ ih hr
  | sub _ hr ih => exact (ih.setChild .fresh rfl).insert (hrec _ _ _ _ _ .fresh hr)

section
variable {rec : Rec} {st : Store} {env : Env} {sc : List SRef} {i : Inst}

theorem kwLoop_kept (hrec : RecKept rec) {s : SRef} : ∀ {kws : List Kw} {r r' : RNode}, Below Kept r →
    kwLoop st env rec sc s i kws r = some r' → Below Kept r'
  | [], r, r', hr, h => by
    simp only [kwLoop, Option.some.injEq] at h
    rw [← h]; exact hr
  | kw :: kws, r, r', hr, h => by
    simp only [kwLoop] at h
    split at h
    · simp only [withSub] at h
      cases he : evalKw st env rec (s :: sc) kw i
          (r.setChild (kw.key, i.path) (r.fresh i kw.key s)) (r.fresh i kw.key s) with
      | none => simp only [he] at h; contradiction
      | some p =>
        obtain ⟨p', c'⟩ := p
        simp only [he] at h
        have h0 : Below Kept (r.setChild (kw.key, i.path) (r.fresh i kw.key s)) := hr.setChild .fresh rfl
        have hp : Below Kept p' := by
          rcases evalKw_parent he with rfl | ⟨con, _, hs, rfl⟩
          · exact h0
          · have := h0.kids _ (mem_of_clookup hs)
            exact h0.setChild (this.2.of_children rfl) this.1
        exact kwLoop_kept hrec (hp.insert (did_kept hrec .fresh (evalKw_did he))) h
    · exact kwLoop_kept hrec hr h

theorem evalBody_kept (hrec : RecKept rec) : RecKept (evalBody st env rec) := by
  intro sc s i r r' hr h
  simp only [evalBody] at h
  split at h
  · rw [← Option.some.inj h]; exact hr
  · rw [← Option.some.inj h]; exact hr.of_children rfl
  · split at h
    · contradiction
    · rename_i hk
      have := kwLoop_kept hrec hr hk
      rw [← Option.some.inj h]
      split
      · exact this.of_children rfl
      · exact this

theorem evalSchema_kept : ∀ n, RecKept (evalSchema st env n)
  | 0 => fun _ _ _ _ _ _ h => by simp [evalSchema] at h
  | n + 1 => evalBody_kept (evalSchema_kept n)

/-- No result in the tree that `evaluate` returns is discarded. -/
theorem evaluate_kept {n : Nat} {s : SRef} {r : RNode} (h : evaluate st env n s i = some r) :
    Kept r.info ∧ Below Kept r := by
  refine ⟨?_, evalSchema_kept n _ _ _ _ _ (.intro (by simp)) h⟩
  have := (evalSchema_frame h).eq
  rw [Kept, this]; rfl

end

/-! ## Locations -/

theorem Good.within {Q : Inst → Prop} {r n : RNode} (h : Good Q r) (hn : InTree r n) : Good Q n := by
  induction hn with
  | self => exact h
  | child _ he ih => exact ih.sub _ he

theorem Below.within {P : RInfo → Prop} {r n : RNode} (h : Below P r) (h0 : P r.info)
    (hn : InTree r n) : P n.info ∧ Below P n := by
  induction hn with
  | self => exact ⟨h0, h⟩
  | child _ he ih => exact ih.2.kids _ he

theorem Spec.Designates.trans {a b c : Value} {p q : List String} (h : Designates a p b)
    (h' : Designates b q c) : Designates a (p ++ q) c := by
  induction h with
  | here => exact h'
  | member hl _ ih => exact .member hl (ih h')
  | item hl _ ih => exact .item hl (ih h')

/-- An instance at a location of a document. -/
def LocIn (doc : Value) (i : Inst) : Prop := Locates doc i.path i.value ∧ i.value.WF

theorem locates_nested {doc v : Value} {p : List String} (h : Locates doc p v)
    (hv : ∀ s, v ≠ .str s) : Designates doc p v := by
  rcases h with h | ⟨_, k, _, _, _, _, h⟩
  · exact h
  · exact absurd h (hv k)

theorem mem_itemsFrom {p : List String} : ∀ {xs : List Value} {n : Nat} {e},
    e ∈ Inst.itemsFrom p n xs → ∃ k x, xs[k]? = some x ∧ e.2 = ⟨p ++ [natStr (n + k)], x⟩
  | [], n, e, h => by simp [Inst.itemsFrom] at h
  | x :: xs, n, e, h => by
    simp only [Inst.itemsFrom] at h
    rcases List.mem_cons.1 h with rfl | h
    · exact ⟨0, x, rfl, rfl⟩
    · obtain ⟨k, y, hk, he⟩ := mem_itemsFrom h
      exact ⟨k + 1, y, by simpa using hk, by rw [he]; congr 3; congr 1; omega⟩

theorem closed_locIn (doc : Value) : Closed (LocIn doc) := by
  refine ⟨?_, ?_, ?_⟩
  · rintro i ⟨hl, hw⟩ p hp
    simp only [Inst.items] at hp
    split at hp
    · rename_i xs hv
      rw [hv] at hl hw
      have hd := locates_nested hl (by simp)
      obtain ⟨k, x, hk, he⟩ := mem_itemsFrom hp
      rw [he]
      refine ⟨.inl ?_, ?_⟩
      · simp only [Nat.zero_add, natStr_eq_toString]
        exact hd.trans (.item hk .here)
      · cases hw with | arr h => exact h x (List.mem_of_getElem? hk)
    · cases hp
  · rintro i ⟨hl, hw⟩ p hp
    simp only [Inst.members] at hp
    split at hp
    · rename_i kvs hv
      rw [hv] at hl hw
      have hd := locates_nested hl (by simp)
      obtain ⟨kv, hkv, rfl⟩ := List.mem_map.1 hp
      cases hw with
      | obj hn h =>
        exact ⟨.inl (hd.trans (.member (dlookup_of_mem hn hkv) .here)), h kv hkv⟩
    · cases hp
  · rintro i ⟨hl, hw⟩ p hp
    simp only [Inst.names] at hp
    split at hp
    · rename_i kvs hv
      rw [hv] at hl
      have hd := locates_nested hl (by simp)
      obtain ⟨kv, hkv, rfl⟩ := List.mem_map.1 hp
      exact ⟨.inr ⟨_, _, _, rfl, hd, List.mem_map.2 ⟨kv, hkv, rfl⟩, rfl⟩, .str⟩
    · cases hp

/-! ## Outputs -/

section
variable {uri : RInfo → String}

theorem member_cons {k k' : String} {v : Value} {r : List (String × Value)} :
    member k (.obj ((k', v) :: r)) = if k = k' then some v else member k (.obj r) := rfl

theorem member_append {k : String} {l r : List (String × Value)} (h : ∀ e ∈ l, e.1 ≠ k) :
    member k (.obj (l ++ r)) = member k (.obj r) := by
  induction l with
  | nil => rfl
  | cons x l ih =>
    rw [List.cons_append, member_cons, if_neg (fun h' => h x List.mem_cons_self h'.symm)]
    exact ih (fun e he => h e (List.mem_cons_of_mem _ he))

/-- The unit that `basic` makes. -/
def unitOf (uri : RInfo → String) (valid : Bool) (info : RInfo) : Value :=
  .obj (locations uri info ++ [(msgKey valid, info.msg valid)])

theorem unitOf_kind {valid : Bool} {info : RInfo} (h : info.msg valid ≠ .null) :
    (valid = true → AnnotationUnit (unitOf uri valid info)) ∧
    (valid = false → ErrorUnit (unitOf uri valid info)) := by
  constructor
  · rintro rfl
    exact ⟨⟨_, h, rfl⟩, rfl⟩
  · rintro rfl
    exact ⟨⟨_, h, rfl⟩, rfl⟩

mutual
theorem mem_basicVisit {keys : Option (List String)} {valid : Bool} {u : Value} :
    ∀ {r : RNode}, u ∈ basicVisit uri keys valid r →
      ∃ n, Along (fun n => n.info.valid = valid) r n ∧ n.info.msg valid ≠ .null ∧
        u = unitOf uri valid n.info
  | .mk info cs, h => by
    simp only [basicVisit] at h
    split at h
    · rename_i hv
      rcases List.mem_append.1 h with h | h
      · refine ⟨.mk info cs, .self hv, ?_⟩
        split at h
        · split at h
          · cases h
          · rename_i hm
            rw [List.mem_singleton] at h
            exact ⟨hm, h⟩
        · cases h
      · obtain ⟨e, he, n, hn, h⟩ := mem_basicVisits h
        refine ⟨n, ?_, h⟩
        clear h
        induction hn with
        | self h => exact .child (.self hv) he h
        | child _ he' h ih => exact .child ih he' h
    · cases h
theorem mem_basicVisits {keys : Option (List String)} {valid : Bool} {u : Value} :
    ∀ {cs : List ((String × List String) × RNode)}, u ∈ basicVisits uri keys valid cs →
      ∃ e ∈ cs, ∃ n, Along (fun n => n.info.valid = valid) e.2 n ∧ n.info.msg valid ≠ .null ∧
        u = unitOf uri valid n.info
  | [], h => by simp [basicVisits] at h
  | (k, c) :: r, h => by
    simp only [basicVisits] at h
    rcases List.mem_append.1 h with h | h
    · exact ⟨(k, c), List.mem_cons_self, mem_basicVisit h⟩
    · obtain ⟨e, he, h⟩ := mem_basicVisits h
      exact ⟨e, List.mem_cons_of_mem _ he, h⟩
end

/-- What a unit reports. -/
def reported (u : Value) (valid : Bool) : Value := (member (msgKey valid) u).getD .null

theorem reported_unitOf (valid : Bool) (info : RInfo) :
    reported (unitOf uri valid info) valid = info.msg valid := by
  cases valid <;> rfl

mutual
theorem basicVisit_errors : ∀ {r : RNode}, Kept r.info → Below Kept r →
    (basicVisit uri none false r).map (fun u => reported u false) = r.errors none none
  | .mk info cs, hk, hb => by
    simp only [Kept, RNode.info_mk] at hk
    simp only [basicVisit, RNode.errors, hk, Bool.not_false, Bool.and_true]
    have ih := basicVisits_errors (cs := cs) hb.kids
    cases hv : info.valid with
    | true => simp
    | false =>
      simp only [if_true, List.map_append, ih, Bool.not_false, RInfo.wanted]
      congr 1
      simp only [RInfo.msg, Bool.false_eq_true, if_false]
      cases info.error <;> simp [reported, msgKey, member, locations, dlookup]
theorem basicVisits_errors : ∀ {cs : List ((String × List String) × RNode)},
    (∀ e ∈ cs, Kept e.2.info ∧ Below Kept e.2) →
    (basicVisits uri none false cs).map (fun u => reported u false) = childErrors none none cs
  | [], _ => rfl
  | (_, c) :: r, h => by
    simp only [basicVisits, childErrors, List.map_append]
    have h0 := h _ List.mem_cons_self
    rw [basicVisit_errors h0.1 h0.2, basicVisits_errors (fun e he => h e (List.mem_cons_of_mem _ he))]
end

mutual
theorem basicVisit_annotations : ∀ {r : RNode}, Kept r.info → Below Kept r →
    (basicVisit uri none true r).map (fun u => reported u true) = r.annotations none none
  | .mk info cs, hk, hb => by
    simp only [Kept, RNode.info_mk] at hk
    simp only [basicVisit, RNode.annotations, hk, Bool.not_false, Bool.and_true]
    have ih := basicVisits_annotations (cs := cs) hb.kids
    cases hv : info.valid with
    | false => simp
    | true =>
      simp only [if_true, List.map_append, ih, RInfo.wanted]
      congr 1
      simp only [RInfo.msg, if_true]
      cases info.annotation <;> simp [reported, msgKey, member, locations, dlookup]
theorem basicVisits_annotations : ∀ {cs : List ((String × List String) × RNode)},
    (∀ e ∈ cs, Kept e.2.info ∧ Below Kept e.2) →
    (basicVisits uri none true cs).map (fun u => reported u true) = childAnnotations none none cs
  | [], _ => rfl
  | (_, c) :: r, h => by
    simp only [basicVisits, childAnnotations, List.map_append]
    have h0 := h _ List.mem_cons_self
    rw [basicVisit_annotations h0.1 h0.2,
      basicVisits_annotations (fun e he => h e (List.mem_cons_of_mem _ he))]
end

theorem memberVerdicts_append : ∀ (l r : List (String × Value)),
    memberVerdicts (l ++ r) = memberVerdicts l ++ memberVerdicts r
  | [], _ => rfl
  | (k, v) :: l, r => by
    simp only [List.cons_append, memberVerdicts, memberVerdicts_append l r, List.append_assoc]

mutual
theorem verbose_verdicts : ∀ (r : RNode),
    unitVerdicts (outVerbose uri r) = (preorder r).map (fun n => .bool n.info.valid)
  | .mk info cs => by
    have ih := verboseVisits_verdicts cs
    simp only [outVerbose, unitVerdicts, memberVerdicts_append, preorder, List.map_cons, ← ih,
      RNode.info_mk]
    have h1 : memberVerdicts (("valid", .bool info.valid) :: locations uri info) =
        [.bool info.valid] := by simp [memberVerdicts, locations]
    have h2 : memberVerdicts (info.msgMember info.valid) = [] := by
      rw [RInfo.msgMember]
      split
      · rfl
      · cases info.valid <;> simp [memberVerdicts, msgKey]
    rw [h1, h2]
    simp only [List.append_nil, List.singleton_append, List.cons.injEq, true_and]
    cases verboseVisits uri cs with
    | nil => rfl
    | cons o os => cases info.valid <;> simp [memberVerdicts, childKey, nestedVerdicts]
theorem verboseVisits_verdicts : ∀ (cs : List ((String × List String) × RNode)),
    listVerdicts (verboseVisits uri cs) = (preorders cs).map (fun n => .bool n.info.valid)
  | [] => rfl
  | (_, c) :: r => by
    simp only [verboseVisits, listVerdicts, preorders, List.map_append, verbose_verdicts c,
      verboseVisits_verdicts r]
end

end

end Jschon
