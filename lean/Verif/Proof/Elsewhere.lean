import Verif.Proof.Aside
import Verif.Spec.Elsewhere

/-!
# Evaluation with dynamic references after further constructions
-/

namespace Jschon
open Spec

theorem resolve_later {h h' : JHeap} (o : Ord h) (e : Ext h h') {ks : List String} {r : Ref} (hr : r < h.next) :
    resolveJson h' ks r = resolveJson h ks r ∧ ∀ c, resolveJson h ks r = .ok c → c < h.next := by
  induction ks generalizing r with
  | nil => exact ⟨rfl, fun c h => by cases h; exact hr⟩
  | cons k ks ih =>
    simp only [resolveJson, e.data hr]
    cases hd : h.data r with
    | arr cs =>
      simp only []
      cases hp : pyInt k with
      | none => exact ⟨rfl, fun c h => by cases h⟩
      | some i =>
        simp only []
        cases hx : pyIndex cs i with
        | none => exact ⟨rfl, fun c h => by cases h⟩
        | some u =>
          obtain ⟨n, hn⟩ := pyIndex_mem hx
          exact ih (o.kid r u (by rw [hd]; exact List.mem_of_getElem? hn)).2.1
    | obj ms =>
      simp only []
      cases hx : dlookup k ms with
      | none => exact ⟨rfl, fun c h => by cases h⟩
      | some u =>
        exact ih (o.kid r u (by rw [hd]; exact List.mem_map.2 ⟨_, dlookup_mem hx, rfl⟩)).2.1
    | _ => exact ⟨rfl, fun c h => by cases h⟩

theorem evalFragment_later {w w' : World} (ok : WOk w) (g : Grown w w') {f : String} {s : Nat} (hs : s < w.heap.next) :
    w'.evalFragment f s = w.evalFragment f s ∧ ∀ c, w.evalFragment f s = .ok c → c < w.heap.next := by
  simp only [World.evalFragment]
  cases Ptr.parseUriFragment f with
  | error e => exact ⟨rfl, fun c h => by cases h⟩
  | ok p => exact resolve_later ok.ord g.ext hs

theorem getSchemaEnd_later {w w' : World} (ok : WOk w) (g : Grown w w') {u : Uri} {s : Nat} (hs : s < w.heap.next) :
    resultOf (getSchemaEnd u s w') = resultOf (getSchemaEnd u s w) ∧
      ∀ c, resultOf (getSchemaEnd u s w) = some c → c < w.heap.next := by
  have fin : ∀ {w : World} {y}, resultOf (((M.read fun w => w.isSchema y) >>= fun b =>
      if b = true then (pure y : M Nat) else M.raise .catalogError) w) =
        if w.isSchema y = true then some y else none := fun {w y} => by
    show resultOf ((if w.isSchema y = true then (pure y : M Nat) else M.raise .catalogError) w) = _
    split <;> rfl
  have both : ∀ {y}, y < w.heap.next →
      ((if w'.isSchema y = true then some y else none) = if w.isSchema y = true then some y else none) ∧
      ∀ c, (if w.isSchema y = true then some y else none) = some c → c < w.heap.next := fun {y} hy => by
    rw [g.isSchema hy]
    refine ⟨rfl, fun c h => ?_⟩
    split at h <;> cases h
    exact hy
  have plain : (∀ w, getSchemaEnd u s w = ((M.read fun w => w.isSchema s) >>= fun b =>
      if b = true then (pure s : M Nat) else M.raise .catalogError) w) →
      resultOf (getSchemaEnd u s w') = resultOf (getSchemaEnd u s w) ∧
      ∀ c, resultOf (getSchemaEnd u s w) = some c → c < w.heap.next := fun h => by
    simp only [h, fin]; exact both hs
  cases hg : u.fragment with
  | none => exact plain fun w => by simp only [getSchemaEnd, followFragment, hg]; rfl
  | some f =>
    by_cases h0 : f = ""
    · exact plain fun w => by simp only [getSchemaEnd, followFragment, hg, h0, if_true]; rfl
    · have run : ∀ w : World, getSchemaEnd u s w = ((match w.evalFragment f s with
          | .ok t => (pure t : M Nat)
          | .error e => M.raise (if isPtrErr e then .catalogError else e)) >>= fun y =>
            (M.read fun w => w.isSchema y) >>= fun b => if b = true then (pure y : M Nat) else M.raise .catalogError) w :=
        fun w => by
          simp only [getSchemaEnd, followFragment, hg, if_neg h0]; rfl
      obtain ⟨h1, h2⟩ := evalFragment_later ok g (f := f) hs
      simp only [run, h1]
      cases he : w.evalFragment f s with
      | error e => exact ⟨rfl, fun c h => by cases h⟩
      | ok y =>
        have : ∀ w : World, ((pure y : M Nat) >>= fun y =>
            (M.read fun w => w.isSchema y) >>= fun b => if b = true then (pure y : M Nat) else M.raise .catalogError) w =
            ((M.read fun w => w.isSchema y) >>= fun b => if b = true then (pure y : M Nat) else M.raise .catalogError) w :=
          fun w => rfl
        simp only [this, fin]
        exact both (h2 y he)

theorem getSchemaWith_later {E : CEnv} {cid : String} {w w' : World} (ok : WOk w) (g : Grown w w') {u : Uri}
    (h1 : cacheGet w'.caches cid u = cacheGet w.caches cid u)
    (h2 : cacheGet w'.caches cid u.noFragment = cacheGet w.caches cid u.noFragment) :
    resultOf (getSchemaWith E (fun _ _ _ _ => M.raise .catalogError) u none cid w') =
      resultOf (getSchemaWith E (fun _ _ _ _ => M.raise .catalogError) u none cid w) ∧
    ∀ c, resultOf (getSchemaWith E (fun _ _ _ _ => M.raise .catalogError) u none cid w) = some c → c < w.heap.next := by
  have e2 : baseCached w' cid u = baseCached w cid u := by simp only [baseCached, h2]
  simp only [getSchemaWith_split, h1, e2]
  cases hc : cacheGet w.caches cid u with
  | some s =>
    exact ⟨rfl, fun c h => by cases h; exact ok.dom _ (ok.cached _ _ _ hc)⟩
  | none =>
    simp only []
    cases hb : baseCached w cid u with
    | some s =>
      refine getSchemaEnd_later ok g ?_
      simp only [baseCached] at hb
      split at hb
      · exact ok.dom _ (ok.cached _ _ _ hb)
      · cases hb
    | none =>
      simp only [loadSchema, Bind.bind, M.andThen, M.ofExcept, M.raise]
      cases loadJson E.lib E.sources u.noFragment <;> exact ⟨rfl, fun c h => by cases h⟩

section
variable [dia : Dialect]
theorem involves_old {E : CEnv} {cid : String} {w : World} (ok : WOk w) {s x : Nat} (hs : s < w.heap.next)
    (h : Involves (w.store E cid) s x) : x < w.heap.next := by
  cases h with
  | refl => exact hs
  | step _ ho hk ht => exact subschema_old ok ho hk ht
  | dyn _ _ _ _ _ hl =>
    simp only [World.store] at hl
    split at hl
    · cases hl
    · exact (getSchemaWith_later ok (.refl w) rfl rfl).2 _ hl

/-- Evaluation gives the same in a later world in which the URIs that dynamic references look up find the same. -/
theorem evaluate_later {E : CEnv} {w w' : World} (ok : WOk w) (g : Grown w w') (b : Before w.heap.next w w') {s : Nat}
    (hs : w.isSchema s = true) {cid : String}
    (ho : ∀ x, x < w.heap.next → w'.schemaObj E x = w.schemaObj E x)
    (hn : ∀ u, Consulted E (w.store E cid) s u → cacheGet w'.caches cid u = cacheGet w.caches cid u ∧
      cacheGet w'.caches cid u.noFragment = cacheGet w.caches cid u.noFragment)
    (env : Env) (n : Nat) (i : Inst) :
    evaluate (w'.store E cid) env n s i = evaluate (w.store E cid) env n s i := by
  have hlt := ok.dom s hs
  refine evaluate_island (P := Involves (w.store E cid) s) ⟨fun x kws kw t hx ho hk ht => .step hx ho hk ht, ?_⟩
    ⟨fun x hx => ho x (involves_old ok hlt hx), ?_⟩ .refl
  · exact fun x kws t f hx ho hk y c u hy hb hl => .dyn hx ho hk hy hb hl
  · intro x kws t f hx ho hk y hy
    refine ⟨?_, fun c hc => ?_⟩
    · show (w'.baseUri y).map Uri.str = (w.baseUri y).map Uri.str
      rw [baseUri_later ok g b (involves_old ok hlt hy)]
    · simp only [World.store]
      cases hu : E.lib.resolve (E.lib.ofText ("#" ++ f)) (E.lib.ofText c) with
      | none => rfl
      | some u =>
        obtain ⟨h1, h2⟩ := hn u ⟨x, kws, t, f, y, c, hx, ho, hk, hy, hc, hu⟩
        exact (getSchemaWith_later ok g h1 h2).1
end

theorem Spec.CElsewhere.after {id : String} {w w' : World} (h : CElsewhere id w w') : CAfter w w' := by
  induction h with
  | refl => exact .refl
  | new _ _ hE hd hu h ih => exact .new ih hE hd hu h
  | get _ _ hE h ih => exact .get ih hE h

theorem Spec.CElsewhere.others {id : String} {w w' : World} (h : CElsewhere id w w') (ok : WOk w) : CacheKept id w w' := by
  induction h with
  | refl => exact .refl _ _
  | new a hid hE hd hu h ih =>
    exact ih.trans (newDocument_others hE _ _ _ _ _ _ _ _ hid hd (.doc (a.after.spec ok).1 hu) h)
  | get a hid hE h ih => exact ih.trans (getSchema_others hE hid (a.after.spec ok).1 h)

end Jschon
