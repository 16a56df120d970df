import Verif.Spec.UriEdit
import Verif.Proof.Later
import Verif.Proof.Construct

/-!
# What changes of URIs do
-/

namespace Jschon
open Spec

/-- Only URIs and caches differ. -/
structure RenOk (w w' : World) : Prop where
  heap : w'.heap = w.heap
  caches : CachesOk w'.caches
  none : ∀ x, w.info x = none → w'.info x = none
  info : ∀ x i, w.info x = some i → ∃ u m, w'.info x = some { i with uri := u, metaUri := m }

theorem RenOk.keywords {w w' : World} (h : RenOk w w') (x : Nat) : w'.keywords x = w.keywords x := by
  simp only [World.keywords]
  cases hi : w.info x with
  | none => rw [h.none x hi]
  | some i => obtain ⟨u, m, e⟩ := h.info x i hi; rw [e]; rfl

theorem RenOk.cacheid {w w' : World} (h : RenOk w w') (x : Nat) : w'.cacheid x = w.cacheid x := by
  simp only [World.cacheid]
  cases hi : w.info x with
  | none => rw [h.none x hi]
  | some i => obtain ⟨u, m, e⟩ := h.info x i hi; rw [e]; rfl

theorem RenOk.isSchema {w w' : World} (h : RenOk w w') (x : Nat) : w'.isSchema x = w.isSchema x := by
  simp only [World.isSchema]
  cases hi : w.info x with
  | none => rw [h.none x hi]
  | some i => obtain ⟨u, m, e⟩ := h.info x i hi; rw [e]; rfl

theorem RenOk.refl {w : World} (h : CachesOk w.caches) : RenOk w w :=
  ⟨rfl, h, fun _ h => h, fun x i h => ⟨i.uri, i.metaUri, h⟩⟩

theorem RenOk.step {w w' : World} (h : RenOk w w') (lib : UriLib) (e : UriEdit) : RenOk w (e.step lib w') := by
  have upd : ∀ {s : Nat} {f : SInfo → SInfo} {cs : Caches}, (∀ i : SInfo, ∃ u m, f i = { i with uri := u, metaUri := m }) →
      CachesOk cs → RenOk w { w'.setInfo s f with caches := cs } := by
    intro s f cs hf hc
    refine ⟨h.heap, hc, fun x hx => ?_, fun x i hx => ?_⟩
    · simp [World.setInfo, h.none x hx]
    · obtain ⟨u, m, e⟩ := h.info x i hx
      simp only [World.setInfo]
      split
      · rw [e]
        obtain ⟨u', m', e'⟩ := hf { i with uri := u, metaUri := m }
        exact ⟨u', m', congrArg some e'⟩
      · exact ⟨u, m, e⟩
  have addOk : ∀ {cs : Caches} {id u s}, CachesOk cs → CachesOk (addSchema cs id u s) := fun {cs id u s} hc =>
    hc.step (.add id u s)
  cases e with
  | uri s u =>
    cases u with
    | none =>
      exact upd (f := fun i => { i with uri := Option.none }) (fun i => ⟨Option.none, i.metaUri, rfl⟩) (delOld_ok h.caches _ _)
    | some u =>
      simp only [UriEdit.step, World.putUri]
      split
      · exact h
      · exact upd (f := fun i => { i with uri := some u }) (fun i => ⟨some u, i.metaUri, rfl⟩) (addOk (delOld_ok h.caches _ _))
  | add id u s => exact ⟨h.heap, addOk h.caches, h.none, h.info⟩
  | del id u => exact ⟨h.heap, h.caches.step (.del id u), h.none, h.info⟩
  | metaUri s u => exact upd (f := fun i => { i with metaUri := u }) (cs := w'.caches) (fun i => ⟨i.uri, u, rfl⟩) h.caches

theorem Spec.Renamed.ok {lib : UriLib} {w w' : World} (h : Renamed lib w w') (hc : CachesOk w.caches) : RenOk w w' := by
  induction h with
  | refl => exact .refl hc
  | uri u _ _ ih => exact ih.step lib (.uri _ u)
  | add id u _ _ ih => exact ih.step lib (.add id u _)
  | del id u _ ih => exact ih.step lib (.del id u)
  | metaUri u _ _ ih => exact ih.step lib (.metaUri _ u)

section
variable [dia : Dialect]

theorem RenOk.obj {w w' : World} (h : RenOk w w') {E : CEnv} (x : Nat) : w'.schemaObj E x = w.schemaObj E x := by
  have hk : ∀ kv, w'.kwOf E kv = w.kwOf E kv := fun kv =>
    kwOfForm_congr (by rw [h.heap]) (by rw [h.heap]) _
  simp only [World.schemaObj, h.keywords, h.heap]
  split
  · rfl
  · congr 1
    have : w'.kwOf E = w.kwOf E := funext hk
    rw [this]

end

end Jschon
