import Verif.Model.Construct

/-!
# More depth gives the same outcome of construction
-/

namespace Jschon

/-- What the first computation ends with, the second one ends with. -/
def M.Sub {α : Type} (m m' : M α) : Prop := ∀ w x, m w = some x → m' w = some x

theorem M.Sub.refl {α : Type} (m : M α) : M.Sub m m := fun _ _ h => h

theorem M.Sub.bind {α β : Type} {m m' : M α} {f f' : α → M β} (h : M.Sub m m') (hf : ∀ a, M.Sub (f a) (f' a)) :
    M.Sub (m >>= f) (m' >>= f') := by
  intro w x hx
  simp only [Bind.bind, M.andThen] at hx ⊢
  cases hm : m w with
  | none => rw [hm] at hx; cases hx
  | some p =>
    rw [hm] at hx
    rw [h w p hm]
    obtain ⟨w1, r⟩ := p
    cases r with
    | ok a => exact hf a w1 x hx
    | error e => exact hx

theorem M.Sub.each {α : Type} {f f' : α → M Unit} (hf : ∀ a, M.Sub (f a) (f' a)) :
    ∀ l, M.Sub (M.each f l) (M.each f' l)
  | [] => .refl _
  | a :: as => M.Sub.bind (hf a) fun _ => M.Sub.each hf as

theorem newDocWith_sub {E : CEnv} {r r' : Nat → M Unit} (h : ∀ s, M.Sub (r s) (r' s)) (cid : String)
    (uri metaUri : Option Uri) (doc : Value) :
    M.Sub (newDocWith E r cid uri metaUri doc) (newDocWith E r' cid uri metaUri doc) :=
  M.Sub.bind (.refl _) fun s => M.Sub.bind (h s) fun _ => .refl _

theorem getSchemaWith_sub {E : CEnv} {d d' : NewDoc} (h : ∀ c u m v, M.Sub (d c u m v) (d' c u m v)) (u : Uri)
    (metaUri : Option Uri) (cid : String) :
    M.Sub (getSchemaWith E d u metaUri cid) (getSchemaWith E d' u metaUri cid) := by
  unfold getSchemaWith
  refine M.Sub.bind (.refl _) fun o => ?_
  cases o with
  | some s => exact .refl _
  | none =>
    refine M.Sub.bind (.refl _) fun o => ?_
    cases o with
    | some s => exact .refl _
    | none => exact M.Sub.bind (.refl _) fun v => M.Sub.bind (h _ _ _ _) fun s => .refl _

theorem resolveOne_sub {E : CEnv} {d d' : NewDoc} (h : ∀ c u m v, M.Sub (d c u m v) (d' c u m v))
    {r r' : Nat → M Unit} (hr : ∀ s, M.Sub (r s) (r' s)) (s : Nat) (kv : String × KwObj) :
    M.Sub (resolveOne E d r s kv) (resolveOne E d' r' s kv) := by
  unfold resolveOne
  split
  · unfold resolveKw
    refine M.Sub.bind (.refl _) fun _ => M.Sub.bind (.refl _) fun _ => M.Sub.bind (.refl _) fun _ =>
      M.Sub.bind (getSchemaWith_sub h _ _ _) fun _ => .refl _
  · refine M.Sub.bind (.refl _) fun b => ?_
    cases b with
    | true => exact hr _
    | false =>
      refine M.Sub.bind (.refl _) fun l => M.Sub.each (fun c => ?_) _
      unfold resolveItem
      refine M.Sub.bind (.refl _) fun b => ?_
      cases b with
      | true => exact hr _
      | false => exact .refl _

theorem resolveReferences_sub {E : CEnv} : ∀ n s, M.Sub (resolveReferences E n s) (resolveReferences E (n + 1) s)
  | 0, _ => fun _ _ h => by cases h
  | n + 1, s => by
    have ih := resolveReferences_sub (E := E) n
    simp only [resolveReferences]
    exact M.Sub.bind (.refl _) fun l => M.Sub.each (fun kv => resolveOne_sub (newDocWith_sub ih) ih s kv) l

/-- More depth gives the same outcome. -/
theorem newDocument_mono {E : CEnv} {n m : Nat} (h : n ≤ m) (cid : String) (uri metaUri : Option Uri)
    (doc : Value) : M.Sub (newDocument E n cid uri metaUri doc) (newDocument E m cid uri metaUri doc) := by
  induction h with
  | refl => exact .refl _
  | step _ ih => exact fun w x hx => newDocWith_sub (resolveReferences_sub _) _ _ _ _ w x (ih w x hx)

theorem getSchema_mono {E : CEnv} {n m : Nat} (h : n ≤ m) (u : Uri) (metaUri : Option Uri) (cid : String) :
    M.Sub (getSchema E n u metaUri cid) (getSchema E m u metaUri cid) :=
  getSchemaWith_sub (fun c u m v => newDocument_mono h c u m v) _ _ _

/-- The outcome of construction does not depend on the depth. -/
theorem newDocument_det {E : CEnv} {n m : Nat} {cid : String} {uri metaUri : Option Uri} {doc : Value}
    {w : World} {x y : World × Except Exc Nat} (h : newDocument E n cid uri metaUri doc w = some x)
    (h' : newDocument E m cid uri metaUri doc w = some y) : x = y := by
  have h1 := newDocument_mono (Nat.le_max_left n m) _ _ _ _ _ _ h
  have h2 := newDocument_mono (Nat.le_max_right n m) _ _ _ _ _ _ h'
  rw [h1] at h2
  exact Option.some.inj h2

end Jschon
