import Verif.Proof.EvalLoops
import Verif.Proof.EvalSim

/-!
# What a keyword leaves in the result of its schema
-/

namespace Jschon

theorem clookup_cerase_ne {k k2 : String × List String} (hne : k2 ≠ k) :
    ∀ {cs : List ((String × List String) × RNode)}, clookup k2 (cerase k cs) = clookup k2 cs
  | [] => rfl
  | (k', c') :: r => by
    by_cases h : k = k'
    · subst h; simp [cerase, clookup, hne]
    · simp only [cerase, h, if_false, clookup, clookup_cerase_ne hne]

section
variable {st : Store} {env : Env} {rec : Rec} {sc : List SRef} {s : SRef} {i : Inst}

/-- What one keyword leaves. -/
theorem withSub_lookup {kw : Kw} {r r' : RNode} {k : String}
    (h : withSub r i kw.key s (fun parent c => evalKw st env rec (s :: sc) kw i parent c) = some r')
    (hk : k ≠ kw.key) (hc : k ≠ "contains") (p : List String) :
    clookup (k, p) r'.children = clookup (k, p) r.children := by
  have n1 : (k, p) ≠ (kw.key, i.path) := fun e => hk (congrArg Prod.fst e)
  have n2 : (k, p) ≠ ("contains", i.path) := fun e => hc (congrArg Prod.fst e)
  simp only [withSub] at h
  cases he : evalKw st env rec (s :: sc) kw i
      (r.setChild (kw.key, i.path) (r.fresh i kw.key s)) (r.fresh i kw.key s) with
  | none => simp only [he] at h; contradiction
  | some q =>
    obtain ⟨p', c'⟩ := q
    simp only [he, Option.some.injEq] at h
    have hp : clookup (k, p) p'.children = clookup (k, p) r.children := by
      rcases evalKw_parent he with rfl | ⟨con, _, _, rfl⟩
      · exact clookup_cset_ne n1
      · exact (clookup_cset_ne n2).trans (clookup_cset_ne n1)
    rw [← h, ← hp]
    split
    · exact (clookup_cerase_ne n1).trans (clookup_cset_ne n1)
    · exact clookup_cset_ne n1

/-- Later keywords leave the results of others alone. -/
theorem kwLoop_lookup {k : String} (hc : k ≠ "contains") (p : List String) :
    ∀ {kws : List Kw} {r r' : RNode}, kwLoop st env rec sc s i kws r = some r' → k ∉ kws.map Kw.key →
      clookup (k, p) r'.children = clookup (k, p) r.children
  | [], r, r', h, _ => by simp only [kwLoop, Option.some.injEq] at h; rw [h]
  | kw :: kws, r, r', h, hk => by
    rw [List.map_cons, List.mem_cons, not_or] at hk
    simp only [kwLoop] at h
    split at h
    · split at h
      · contradiction
      · rename_i r1 h1
        exact (kwLoop_lookup hc p h hk.2).trans (withSub_lookup h1 hk.1 hc p)
    · exact kwLoop_lookup hc p h hk.2

/-- The result of a keyword that looks at nothing but the value is there in the end. -/
theorem kwLoop_of_mem {kw : Kw} (hc : kw.key ≠ "contains") (ht : kw.types.contains i.value.type = true)
    {f : RNode → RNode} (hf : ∀ parent c, evalKw st env rec (s :: sc) kw i parent c = some (parent, f c))
    (hd : ∀ c : RNode, c.info.discard = false → (f c).info.discard = false) :
    ∀ {kws : List Kw} {r r' : RNode}, (kws.map Kw.key).Nodup → kw ∈ kws →
      kwLoop st env rec sc s i kws r = some r' →
      ∃ r0 : RNode, r0.info = r.info ∧ clookup (kw.key, i.path) r'.children = some (f (r0.fresh i kw.key s))
  | [], r, r', _, hm, _ => by cases hm
  | kw' :: kws, r, r', hn, hm, h => by
    rw [List.map_cons, List.nodup_cons] at hn
    rcases List.mem_cons.1 hm with rfl | hm
    · simp only [kwLoop, ht, if_true, withSub, hf, hd (r.fresh i kw.key s) rfl] at h
      refine ⟨r, rfl, ?_⟩
      rw [kwLoop_lookup hc _ h hn.1]
      exact clookup_cset_self
    · simp only [kwLoop] at h
      split at h
      · split at h
        · contradiction
        · rename_i r1 h1
          obtain ⟨r0, e, h2⟩ := kwLoop_of_mem hc ht hf hd hn.2 hm h
          refine ⟨r0, ?_, h2⟩
          rw [e]
          simp only [withSub] at h1
          cases he : evalKw st env rec (s :: sc) kw' i
              (r.setChild (kw'.key, i.path) (r.fresh i kw'.key s)) (r.fresh i kw'.key s) with
          | none => simp only [he] at h1; contradiction
          | some q =>
            obtain ⟨p', c'⟩ := q
            simp only [he, Option.some.injEq] at h1
            have hp : p'.info = r.info := by
              rcases evalKw_parent he with rfl | ⟨con, _, _, rfl⟩ <;> rfl
            rw [← h1]
            split <;> exact hp
      · exact kwLoop_of_mem hc ht hf hd hn.2 hm h

end

theorem evalBody_children {st : Store} {env : Env} {rec : Rec} {sc : List SRef} {s : SRef} {i : Inst}
    {kws : List Kw} (hs : st.obj s = .obj kws) {r r' : RNode} (h : evalBody st env rec sc s i r = some r') :
    ∃ r1, kwLoop st env rec sc s i kws r = some r1 ∧ r'.children = r1.children := by
  simp only [evalBody, hs] at h
  split at h
  · contradiction
  · rename_i r1 h1
    refine ⟨r1, h1, ?_⟩
    rw [← Option.some.inj h]
    split <;> rfl

theorem annotations_child {path : Option (List String)} {key : Option String} {a : Value} {k : String × List String}
    {c : RNode} (h : a ∈ c.annotations path key) :
    ∀ {cs : List ((String × List String) × RNode)}, (k, c) ∈ cs → a ∈ childAnnotations path key cs
  | (k', c') :: cs, hm => by
    simp only [childAnnotations]
    rcases List.mem_cons.1 hm with e | hm
    · cases e; exact List.mem_append_left _ h
    · exact List.mem_append_right _ (annotations_child h hm)

end Jschon
