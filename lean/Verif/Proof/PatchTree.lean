import Verif.Proof.PatchHeap

namespace Jschon
open Spec

/-! ## Footprints -/

mutual
theorem owns_frame {h h' : PHeap} : ∀ {p v fp}, Owns h p v fp → (∀ a ∈ fp, h'.cell a = h.cell a) →
    Owns h' p v fp
  | _, _, _, .sc, _ => .sc
  | _, _, _, .list hc ho, hf =>
    .list ((hf _ (List.mem_cons_self ..)).trans hc)
      (ownsAll_frame ho (fun a ha => hf a (List.mem_cons_of_mem _ ha)))
  | _, _, _, .dict hc hk ho, hf =>
    .dict ((hf _ (List.mem_cons_self ..)).trans hc) hk
      (ownsAll_frame ho (fun a ha => hf a (List.mem_cons_of_mem _ ha)))
theorem ownsAll_frame {h h' : PHeap} : ∀ {ps vs fp}, OwnsAll h ps vs fp →
    (∀ a ∈ fp, h'.cell a = h.cell a) → OwnsAll h' ps vs fp
  | _, _, _, .nil, _ => .nil
  | _, _, _, .cons h1 h2, hf =>
    .cons (owns_frame h1 (fun a ha => hf a (List.mem_append_left _ ha)))
      (ownsAll_frame h2 (fun a ha => hf a (List.mem_append_right _ ha)))
end

theorem dkeys_shift (n : Nat) (ms : List (String × PV)) :
    dkeys (ms.map (fun m => (m.1, m.2.shift n))) = dkeys ms := by
  simp [dkeys, Function.comp_def]

mutual
theorem owns_shift {h : PHeap} {x : PV} : ∀ {p v fp}, Owns h p v fp →
    Owns (h.deepcopy x).1 (p.shift h.next) v (fp.map (h.next + ·))
  | _, _, _, .sc => .sc
  | _, _, _, .list hc ho => by
    refine .list (ps := _) ?_ (ownsAll_shift ho)
    rw [deepcopy_new, hc]; rfl
  | _, _, _, .dict (ms := ms) hc hk ho => by
    refine .dict (ms := ms.map (fun m => (m.1, m.2.shift h.next))) ?_ ?_ ?_
    · rw [deepcopy_new, hc]; rfl
    · rw [dkeys_shift]; exact hk
    · have := ownsAll_shift (x := x) ho
      rw [List.map_map] at this ⊢
      exact this
theorem ownsAll_shift {h : PHeap} {x : PV} : ∀ {ps vs fp}, OwnsAll h ps vs fp →
    OwnsAll (h.deepcopy x).1 (ps.map (PV.shift h.next)) vs (fp.map (h.next + ·))
  | _, _, _, .nil => .nil
  | _, _, _, .cons h1 h2 => by
    rw [List.map_append]
    exact .cons (owns_shift h1) (ownsAll_shift h2)
end

theorem zip_snd {β γ : Type} (f : β → γ) : ∀ {ms : List (String × β)} {kvs : List (String × γ)},
    dkeys ms = dkeys kvs → (ms.map Prod.snd).map f = kvs.map Prod.snd →
    ms.map (fun m => (m.1, f m.2)) = kvs
  | [], [], _, _ => rfl
  | [], _ :: _, h, _ => by simp [dkeys] at h
  | _ :: _, [], h, _ => by simp [dkeys] at h
  | m :: ms, kv :: kvs, h1, h2 => by
    simp only [dkeys, List.map_cons, List.cons.injEq] at h1 h2 ⊢
    exact ⟨by rw [h1.1, h2.1], zip_snd f h1.2 h2.2⟩

mutual
theorem owns_read {h : PHeap} : ∀ {p v fp}, Owns h p v fp → ∀ n, fp.length ≤ n → readPV h n p = v
  | _, _, _, .sc, n, _ => by cases n <;> rfl
  | _, _, _, .list hc ho, 0, hn => by simp at hn
  | _, _, _, .list hc ho, n + 1, hn => by
    simp only [readPV, hc]
    rw [ownsAll_read ho n (by simpa using hn)]
  | _, _, _, .dict hc hk ho, 0, hn => by simp at hn
  | _, _, _, .dict hc hk ho, n + 1, hn => by
    simp only [readPV, hc]
    rw [zip_snd (readPV h n) hk (ownsAll_read ho n (by simpa using hn))]
theorem ownsAll_read {h : PHeap} : ∀ {ps vs fp}, OwnsAll h ps vs fp → ∀ n, fp.length ≤ n →
    ps.map (readPV h n) = vs
  | _, _, _, .nil, _, _ => rfl
  | _, _, _, .cons h1 h2, n, hn => by
    rw [List.length_append] at hn
    rw [List.map_cons, owns_read h1 n (by omega), ownsAll_read h2 n (by omega)]
end

theorem nodup_length_le : ∀ (n : Nat) (l : List Nat), l.Nodup → (∀ x ∈ l, x < n) → l.length ≤ n
  | 0, l, _, h => by
    cases l with
    | nil => exact Nat.le_refl _
    | cons a l => exact absurd (h a (List.mem_cons_self ..)) (by omega)
  | n + 1, l, hn, h => by
    have h1 := nodup_length_le n (l.erase n) (hn.erase n) (fun x hx => by
      have h2 := (hn.mem_erase_iff).1 hx
      have := h x h2.2
      omega)
    rw [List.length_erase] at h1
    split at h1 <;> omega

/-- Reading a tree gives its value. -/
theorem tree_read {h : PHeap} {p : PV} {v : Value} {fp : List Nat} (ho : Owns h p v fp) (hn : fp.Nodup)
    (hl : ∀ a ∈ fp, a < h.next) : readPV h h.next p = v :=
  owns_read ho _ (nodup_length_le _ _ hn hl)

theorem ownsAll_length {h : PHeap} {ps : List PV} {vs : List Value} {fp : List Nat} :
    OwnsAll h ps vs fp → ps.length = vs.length := by
  intro ho
  induction ps generalizing vs fp with
  | nil => cases ho; rfl
  | cons p ps ih => cases ho with | cons _ h2 => simp [ih h2]

theorem ownsAll_append {h : PHeap} {l1 r1 : List PV} {l r : List Value} {fl fr : List Nat}
    (h1 : OwnsAll h l1 l fl) (h2 : OwnsAll h r1 r fr) : OwnsAll h (l1 ++ r1) (l ++ r) (fl ++ fr) := by
  induction l1 generalizing l fl with
  | nil => cases h1; exact h2
  | cons p ps ih =>
    cases h1 with
    | cons a b =>
      rw [List.append_assoc]
      exact .cons a (ih b)

theorem ownsAll_split {h : PHeap} : ∀ {l1 r1 : List PV} {l r : List Value} {fp : List Nat},
    l1.length = l.length → OwnsAll h (l1 ++ r1) (l ++ r) fp →
    ∃ fl fr, fp = fl ++ fr ∧ OwnsAll h l1 l fl ∧ OwnsAll h r1 r fr
  | [], _, [], _, fp, _, ho => ⟨[], fp, rfl, .nil, ho⟩
  | p :: l1, r1, v :: l, r, _, hl, ho => by
    cases ho with
    | @cons _ _ _ _ f fs a b =>
      obtain ⟨fl, fr, rfl, h1, h2⟩ := ownsAll_split (by simpa using hl) b
      exact ⟨f ++ fl, fr, (List.append_assoc ..).symm, .cons a h1, h2⟩
  | [], _, _ :: _, _, _, hl, _ => by simp at hl
  | _ :: _, _, [], _, _, hl, _ => by simp at hl

theorem ownsAll_cons {h : PHeap} {q : PV} {r1 : List PV} {u : Value} {r : List Value} {f : List Nat}
    (ho : OwnsAll h (q :: r1) (u :: r) f) :
    ∃ fq fr, f = fq ++ fr ∧ Owns h q u fq ∧ OwnsAll h r1 r fr := by
  cases ho with
  | cons a b => exact ⟨_, _, rfl, a, b⟩

theorem split_len {α β : Type} {ps : List α} {l : List β} {r : List β}
    (h : ps.length = (l ++ r).length) :
    ps = ps.take l.length ++ ps.drop l.length ∧ (ps.take l.length).length = l.length ∧
      (ps.drop l.length).length = r.length := by
  simp only [List.length_append] at h
  exact ⟨(List.take_append_drop ..).symm, by simp; omega, by simp; omega⟩

theorem split_cons {α β : Type} {ps : List α} {l : List β} {u : β} {r : List β}
    (h : ps.length = (l ++ u :: r).length) :
    ∃ l1 q r1, ps = l1 ++ q :: r1 ∧ l1.length = l.length ∧ r1.length = r.length := by
  obtain ⟨h1, h2, h3⟩ := split_len h
  cases hd : ps.drop l.length with
  | nil => rw [hd] at h3; simp at h3
  | cons q r1 => rw [hd] at h1 h3; exact ⟨_, q, r1, h1, h2, by simpa using h3⟩

/-- An item of an array, in the heap. -/
theorem owns_item {h : PHeap} {ps : List PV} {l : List Value} {u : Value} {r : List Value}
    {fp : List Nat} (ho : OwnsAll h ps (l ++ u :: r) fp) :
    ∃ l1 q r1 fl fq fr, ps = l1 ++ q :: r1 ∧ l1.length = l.length ∧ fp = fl ++ (fq ++ fr) ∧
      OwnsAll h l1 l fl ∧ Owns h q u fq ∧ OwnsAll h r1 r fr := by
  obtain ⟨l1, q, r1, rfl, hl, _⟩ := split_cons (ownsAll_length ho)
  obtain ⟨fl, f2, rfl, h1, h2⟩ := ownsAll_split hl ho
  obtain ⟨fq, fr, rfl, h3, h4⟩ := ownsAll_cons h2
  exact ⟨l1, q, r1, fl, fq, fr, rfl, hl, rfl, h1, h3, h4⟩

theorem dkeys_split {β γ : Type} {ms : List (String × β)} {l r : List (String × γ)} {k : String}
    {u : γ} (h : dkeys ms = dkeys (l ++ (k, u) :: r)) :
    ∃ m1 q m2, ms = m1 ++ (k, q) :: m2 ∧ dkeys m1 = dkeys l ∧ dkeys m2 = dkeys r := by
  simp only [dkeys, List.map_append, List.map_cons] at h
  obtain ⟨m1, m3, rfl, h1, h2⟩ := List.map_eq_append_iff.1 h
  obtain ⟨⟨k', q⟩, m2, rfl, rfl, h3⟩ := List.map_eq_cons_iff.1 h2
  exact ⟨m1, q, m2, rfl, h1, h3⟩

/-- A member of an object, in the heap. -/
theorem owns_member {h : PHeap} {ms : List (String × PV)} {l r : List (String × Value)} {k : String}
    {u : Value} {fp : List Nat} (hk : dkeys ms = dkeys (l ++ (k, u) :: r))
    (ho : OwnsAll h (ms.map Prod.snd) ((l ++ (k, u) :: r).map Prod.snd) fp) :
    ∃ m1 q m2 fl fq fr, ms = m1 ++ (k, q) :: m2 ∧ dkeys m1 = dkeys l ∧ dkeys m2 = dkeys r ∧
      fp = fl ++ (fq ++ fr) ∧ OwnsAll h (m1.map Prod.snd) (l.map Prod.snd) fl ∧ Owns h q u fq ∧
      OwnsAll h (m2.map Prod.snd) (r.map Prod.snd) fr := by
  obtain ⟨m1, q, m2, rfl, h1, h2⟩ := dkeys_split hk
  simp only [List.map_append, List.map_cons] at ho
  have hl : (m1.map Prod.snd).length = (l.map Prod.snd).length := by
    have := congrArg List.length h1
    simpa [dkeys] using this
  obtain ⟨fl, f2, rfl, h3, h4⟩ := ownsAll_split hl ho
  obtain ⟨fq, fr, rfl, h5, h6⟩ := ownsAll_cons h4
  exact ⟨m1, q, m2, fl, fq, fr, rfl, h1, h2, rfl, h3, h5, h6⟩

theorem owns_arr {h : PHeap} {p : PV} {vs : List Value} {fp : List Nat} (ho : Owns h p (.arr vs) fp) :
    ∃ a ps fs, p = .ref a ∧ h.cell a = .list ps ∧ fp = a :: fs ∧ OwnsAll h ps vs fs := by
  generalize hv : Value.arr vs = v at ho
  cases ho with
  | @sc s => cases s <;> cases hv
  | list hc ho => cases hv; exact ⟨_, _, _, rfl, hc, rfl, ho⟩
  | dict => cases hv

theorem owns_obj {h : PHeap} {p : PV} {kvs : List (String × Value)} {fp : List Nat}
    (ho : Owns h p (.obj kvs) fp) :
    ∃ a ms fs, p = .ref a ∧ h.cell a = .dict ms ∧ fp = a :: fs ∧ dkeys ms = dkeys kvs ∧
      OwnsAll h (ms.map Prod.snd) (kvs.map Prod.snd) fs := by
  generalize hv : Value.obj kvs = v at ho
  cases ho with
  | @sc s => cases s <;> cases hv
  | list hc ho => cases hv
  | dict hc hk ho => cases hv; exact ⟨_, _, _, rfl, hc, rfl, hk, ho⟩

theorem owns_scalar {h : PHeap} {p : PV} {v : Value} {fp : List Nat} (ho : Owns h p v fp)
    (h1 : ∀ vs, v ≠ .arr vs) (h2 : ∀ kvs, v ≠ .obj kvs) : ∃ s, p = .sc s ∧ v = s.val ∧ fp = [] := by
  cases ho with
  | @sc s => exact ⟨s, rfl, rfl, rfl⟩
  | list => exact absurd rfl (h1 _)
  | dict => exact absurd rfl (h2 _)

theorem dlookup_keys {β γ : Type} {ms : List (String × β)} {kvs : List (String × γ)}
    (h : dkeys ms = dkeys kvs) (k : String) : (dlookup k ms).isSome = (dlookup k kvs).isSome := by
  rw [Bool.eq_iff_iff, dlookup_isSome, dlookup_isSome, h]

/-- Resolution fails in the heap as on the value. -/
theorem resolve_err {h : PHeap} {ks : List String} {p : PV} {v : Value} {fp : List Nat} {e : Exc}
    (ho : Owns h p v fp) (he : resolvePlain ks v = .error e) : resolvePV h ks p = .error e := by
  induction ks generalizing p v fp with
  | nil => cases v <;> simp [resolvePlain] at he
  | cons k ks ih =>
    cases v with
    | arr vs =>
      obtain ⟨a, ps, fs, rfl, hc, rfl, hos⟩ := owns_arr ho
      simp only [resolvePlain] at he
      simp only [resolvePV, hc]
      by_cases hi : jsonIndexRe.fullmatch k.toList = true
      · obtain ⟨n, rfl⟩ := (isIndex_iff k).1 hi
        simp only [hi, if_true, pyInt_natStr, pyIndex_natCast] at he ⊢
        cases hx : vs[n]? with
        | none =>
          have hl := ownsAll_length hos
          have : ps[n]? = none := by
            rw [List.getElem?_eq_none_iff] at hx ⊢; omega
          simpa [hx, this] using he
        | some u =>
          obtain ⟨hs, hn⟩ := getElem?_split hx
          rw [hs] at hos
          obtain ⟨l1, q, r1, fl, fq, fr, rfl, hl, -, h1, h2, h3⟩ := owns_item hos
          have : (l1 ++ q :: r1)[n]? = some q := by
            rw [← hn, ← hl]; simp
          simp only [hx, this] at he ⊢
          exact ih h2 he
      · simpa [hi] using he
    | obj kvs =>
      obtain ⟨a, ms, fs, rfl, hc, rfl, hk, hos⟩ := owns_obj ho
      simp only [resolvePlain] at he
      simp only [resolvePV, hc]
      cases hx : dlookup k kvs with
      | none =>
        have : dlookup k ms = none := by
          have := dlookup_keys hk k
          rw [hx] at this
          simpa using this
        simpa [hx, this] using he
      | some u =>
        obtain ⟨l, r, rfl, hl⟩ := dlookup_split.1 hx
        obtain ⟨m1, q, m2, fl, fq, fr, rfl, k1, k2, -, h1, h2, h3⟩ := owns_member hk hos
        have : dlookup k (m1 ++ (k, q) :: m2) = some q :=
          dlookup_split.2 ⟨m1, m2, rfl, by rw [k1]; exact hl⟩
        simp only [hx, this] at he ⊢
        exact ih h2 he
    | _ =>
      obtain ⟨s, rfl, _, _⟩ := owns_scalar ho (by simp) (by simp)
      simp only [resolvePlain] at he
      simpa [resolvePV] using he

/-- A location in the heap: what is found there, and what a change there does to the document. -/
theorem focus {h : PHeap} {ks : List String} {p : PV} {v u : Value} {fp : List Nat}
    (ho : Owns h p v fp) (hn : fp.Nodup) (hu : resolvePlain ks v = .ok u) :
    ∃ q fq, resolvePV h ks p = .ok q ∧ Owns h q u fq ∧ (∀ x ∈ fq, x ∈ fp) ∧ fq.Nodup ∧
      ∀ h' w f', (∀ a ∈ fp, a ∉ fq → h'.cell a = h.cell a) → Owns h' q w f' → f'.Nodup →
        (∀ x ∈ f', x ∈ fp → x ∈ fq) →
        ∃ d fd, putAt ks w v = .ok d ∧ Owns h' p d fd ∧ fd.Nodup ∧ ∀ x ∈ fd, x ∈ fp ∨ x ∈ f' := by
  induction ks generalizing p v fp with
  | nil =>
    have e : v = u := by cases v <;> simp [resolvePlain] at hu <;> exact hu
    subst e
    refine ⟨p, fp, by cases p <;> rfl, ho, fun _ h => h, hn, fun h' w f' _ how hf _ =>
      ⟨w, f', by cases v <;> rfl, how, hf, fun x hx => .inr hx⟩⟩
  | cons k ks ih =>
    -- the common part of arrays and objects
    have step : ∀ {a : Nat} {fl fq fr : List Nat} {h' : PHeap} {f' fu : List Nat} {q : List Nat},
        (a :: (fl ++ (fq ++ fr))).Nodup → (∀ x ∈ q, x ∈ fq) → (∀ x ∈ f', x ∈ a :: (fl ++ (fq ++ fr)) → x ∈ q) →
        (∀ b ∈ a :: (fl ++ (fq ++ fr)), b ∉ q → h'.cell b = h.cell b) →
        (∀ x ∈ fu, x ∈ fq ∨ x ∈ f') → fu.Nodup →
        h'.cell a = h.cell a ∧ (∀ b ∈ fl, h'.cell b = h.cell b) ∧ (∀ b ∈ fr, h'.cell b = h.cell b) ∧
        (a :: (fl ++ (fu ++ fr))).Nodup ∧
        ∀ x ∈ a :: (fl ++ (fu ++ fr)), x ∈ a :: (fl ++ (fq ++ fr)) ∨ x ∈ f' := by
      intro a fl fq fr h' f' fu q hnd hqs hf hag hfu hnu
      simp only [List.nodup_cons, List.nodup_append, List.mem_append, not_or] at hnd
      obtain ⟨⟨ha1, ha2, ha3⟩, hl, ⟨hq, hr, hqr⟩, hd⟩ := hnd
      have nq : ∀ x, (x = a ∨ x ∈ fl ∨ x ∈ fr) → x ∉ fq := by
        rintro x (rfl | hx | hx) hxq
        · exact ha2 hxq
        · exact hd x hx x (.inl hxq) rfl
        · exact hqr x hxq x hx rfl
      have nu : ∀ x, (x = a ∨ x ∈ fl ∨ x ∈ fr) → x ∉ fu := by
        intro x hx hxu
        rcases hfu x hxu with h1 | h1
        · exact nq x hx h1
        · refine nq x hx (hqs x (hf x h1 ?_))
          simp only [List.mem_cons, List.mem_append]
          rcases hx with h | h | h
          · exact .inl h
          · exact .inr (.inl h)
          · exact .inr (.inr (.inr h))
      have ag : ∀ x, (x = a ∨ x ∈ fl ∨ x ∈ fr) → h'.cell x = h.cell x := by
        intro x hx
        refine hag x ?_ (fun hxq => nq x hx (hqs x hxq))
        simp only [List.mem_cons, List.mem_append]
        rcases hx with h | h | h
        · exact .inl h
        · exact .inr (.inl h)
        · exact .inr (.inr (.inr h))
      refine ⟨ag a (.inl rfl), fun b hb => ag b (.inr (.inl hb)), fun b hb => ag b (.inr (.inr hb)),
        ?_, ?_⟩
      · simp only [List.nodup_cons, List.nodup_append, List.mem_append, not_or]
        refine ⟨⟨ha1, nu a (.inl rfl), ha3⟩, hl, ⟨hnu, hr, ?_⟩, ?_⟩
        · rintro x hx y hy rfl; exact nu x (.inr (.inr hy)) hx
        · rintro x hx y (hy | hy) rfl
          · exact nu x (.inr (.inl hx)) hy
          · exact hd x hx x (.inr hy) rfl
      · intro x hx
        simp only [List.mem_cons, List.mem_append] at hx ⊢
        rcases hx with h | h | h | h
        · exact .inl (.inl h)
        · exact .inl (.inr (.inl h))
        · exact (hfu x h).imp (fun h => .inr (.inr (.inl h))) id
        · exact .inl (.inr (.inr (.inr h)))
    cases v with
    | arr vs =>
      obtain ⟨a, ps, fs, rfl, hc, rfl, hos⟩ := owns_arr ho
      simp only [resolvePlain] at hu
      by_cases hi : jsonIndexRe.fullmatch k.toList = true
      · simp only [hi, if_true] at hu
        obtain ⟨n, rfl⟩ := (isIndex_iff k).1 hi
        simp only [pyInt_natStr, pyIndex_natCast] at hu
        cases hx : vs[n]? with
        | none => simp [hx] at hu
        | some w =>
          simp only [hx] at hu
          obtain ⟨hs, hlen⟩ := getElem?_split hx
          generalize vs.take n = l at hs hlen
          generalize vs.drop (n + 1) = r at hs
          subst hs
          obtain ⟨l1, q, r1, fl, fq, fr, rfl, hl, rfl, h1, h2, h3⟩ := owns_item hos
          have hnq : fq.Nodup := by
            simp only [List.nodup_cons, List.nodup_append] at hn; exact hn.2.2.1.1
          obtain ⟨q', fq', g1, g2, g3, g4, g5⟩ := ih h2 hnq hu
          have hget : (l1 ++ q :: r1)[n]? = some q := by rw [← hlen, ← hl]; simp
          refine ⟨q', fq', ?_, g2, fun x hx => ?_, g4, ?_⟩
          · simp only [resolvePV, hc, hi, if_true, pyInt_natStr, pyIndex_natCast, hget]
            exact g1
          · simp only [List.mem_cons, List.mem_append]
            exact .inr (.inr (.inl (g3 x hx)))
          · intro h' w' f' hag how hf hsub
            have hin : ∀ x ∈ fq, x ∈ a :: (fl ++ (fq ++ fr)) := fun x hx => by
              simp only [List.mem_cons, List.mem_append]; exact .inr (.inr (.inl hx))
            obtain ⟨d, fd, e1, e2, e3, e4⟩ := g5 h' w' f' (fun b hb => hag b (hin b hb)) how hf
              (fun x hx hxq => hsub x hx (hin x hxq))
            obtain ⟨s1, s2, s3, s4, s5⟩ := step hn g3 hsub hag e4 e3
            refine ⟨.arr (l ++ d :: r), _, ?_, .list (s1.trans hc) (ownsAll_append
              (ownsAll_frame h1 s2) (.cons e2 (ownsAll_frame h3 s3))), s4, s5⟩
            simp only [putAt] at e1 ⊢
            simp only [updateAt, hi, if_true, pyInt_natStr, pyIndex_natCast, hx, e1,
              Int.toNat_natCast]
            rw [← hlen, set_split]
      · simp [hi] at hu
    | obj kvs =>
      obtain ⟨a, ms, fs, rfl, hc, rfl, hk, hos⟩ := owns_obj ho
      simp only [resolvePlain] at hu
      cases hx : dlookup k kvs with
      | none => simp [hx] at hu
      | some w =>
        simp only [hx] at hu
        obtain ⟨l, r, rfl, hl⟩ := dlookup_split.1 hx
        obtain ⟨m1, q, m2, fl, fq, fr, rfl, k1, k2, rfl, h1, h2, h3⟩ := owns_member hk hos
        have hnq : fq.Nodup := by
          simp only [List.nodup_cons, List.nodup_append] at hn; exact hn.2.2.1.1
        obtain ⟨q', fq', g1, g2, g3, g4, g5⟩ := ih h2 hnq hu
        have hget : dlookup k (m1 ++ (k, q) :: m2) = some q :=
          dlookup_split.2 ⟨m1, m2, rfl, by rw [k1]; exact hl⟩
        refine ⟨q', fq', ?_, g2, fun x hx => ?_, g4, ?_⟩
        · simp only [resolvePV, hc, hget]
          exact g1
        · simp only [List.mem_cons, List.mem_append]
          exact .inr (.inr (.inl (g3 x hx)))
        · intro h' w' f' hag how hf hsub
          have hin : ∀ x ∈ fq, x ∈ a :: (fl ++ (fq ++ fr)) := fun x hx => by
            simp only [List.mem_cons, List.mem_append]; exact .inr (.inr (.inl hx))
          obtain ⟨d, fd, e1, e2, e3, e4⟩ := g5 h' w' f' (fun b hb => hag b (hin b hb)) how hf
            (fun x hx hxq => hsub x hx (hin x hxq))
          obtain ⟨s1, s2, s3, s4, s5⟩ := step hn g3 hsub hag e4 e3
          refine ⟨.obj (l ++ (k, d) :: r), _, ?_, .dict (s1.trans hc) ?_ ?_, s4, s5⟩
          · simp only [putAt] at e1 ⊢
            simp only [updateAt, hx, e1]
            rw [dset_of_mem hl]
          · simpa [dkeys] using hk
          · simp only [List.map_append, List.map_cons]
            exact ownsAll_append (ownsAll_frame h1 s2) (.cons e2 (ownsAll_frame h3 s3))
    | _ => simp [resolvePlain] at hu

/-! ## Mutation of one object -/

/-- The mutation `res` of `parent` refines the value-level result `vres`. -/
def LocalR (h : PHeap) (parent : PV) (fp fv : List Nat) (vres : Except Exc Value)
    (res : PHeap × Except Exc Unit) : Prop :=
  match vres with
  | .ok w => res.2 = .ok () ∧ res.1.next = h.next ∧
      (∀ b, PV.ref b ≠ parent → res.1.cell b = h.cell b) ∧
      ∃ f', Owns res.1 parent w f' ∧ f'.Nodup ∧ ∀ x ∈ f', x ∈ fp ∨ x ∈ fv
  | .error e => res = (h, .error e)

theorem setCell_ne {h : PHeap} {a b : Nat} {c : Cell} (hb : b ≠ a) : (h.setCell a c).cell b = h.cell b := by
  simp [PHeap.setCell, hb]

theorem setCell_self {h : PHeap} {a : Nat} {c : Cell} : (h.setCell a c).cell a = c := by
  simp [PHeap.setCell]

theorem localR_list {h : PHeap} {a : Nat} {ps : List PV} {vs : List Value} {fs fv f : List Nat}
    (ho : OwnsAll h ps vs f) (hf : (a :: f).Nodup) (hsub : ∀ x ∈ f, x ∈ fs ∨ x ∈ fv) :
    LocalR h (.ref a) (a :: fs) fv (.ok (.arr vs)) (h.setCell a (.list ps), .ok ()) := by
  refine ⟨rfl, rfl, fun b hb => setCell_ne (fun e => hb (by rw [e])), a :: f,
    .list setCell_self (ownsAll_frame ho (fun b hb => setCell_ne ?_)), hf, fun x hx => ?_⟩
  · rintro rfl; exact (List.nodup_cons.1 hf).1 hb
  · rcases List.mem_cons.1 hx with rfl | hx
    · exact .inl (List.mem_cons_self ..)
    · exact (hsub x hx).imp (List.mem_cons_of_mem _) id

theorem localR_dict {h : PHeap} {a : Nat} {ms : List (String × PV)} {kvs : List (String × Value)}
    {fs fv f : List Nat} (hk : dkeys ms = dkeys kvs)
    (ho : OwnsAll h (ms.map Prod.snd) (kvs.map Prod.snd) f) (hf : (a :: f).Nodup)
    (hsub : ∀ x ∈ f, x ∈ fs ∨ x ∈ fv) :
    LocalR h (.ref a) (a :: fs) fv (.ok (.obj kvs)) (h.setCell a (.dict ms), .ok ()) := by
  refine ⟨rfl, rfl, fun b hb => setCell_ne (fun e => hb (by rw [e])), a :: f,
    .dict setCell_self hk (ownsAll_frame ho (fun b hb => setCell_ne ?_)), hf, fun x hx => ?_⟩
  · rintro rfl; exact (List.nodup_cons.1 hf).1 hb
  · rcases List.mem_cons.1 hx with rfl | hx
    · exact .inl (List.mem_cons_self ..)
    · exact (hsub x hx).imp (List.mem_cons_of_mem _) id

/-- Replacing the middle part of a footprint. -/
theorem nodup_mid {a : Nat} {fl fq fr fv : List Nat} (hn : (a :: (fl ++ (fq ++ fr))).Nodup)
    (hv : fv.Nodup) (hd : ∀ x ∈ fv, x ∉ a :: (fl ++ (fq ++ fr))) :
    (a :: (fl ++ (fv ++ fr))).Nodup ∧ ∀ x ∈ fl ++ (fv ++ fr), x ∈ fl ++ (fq ++ fr) ∨ x ∈ fv := by
  simp only [List.nodup_cons, List.nodup_append, List.mem_append, not_or, List.mem_cons] at hn hd ⊢
  obtain ⟨⟨h1, h2, h3⟩, h4, ⟨h5, h6, h7⟩, h8⟩ := hn
  refine ⟨⟨⟨h1, fun ha => (hd a ha).1 rfl, h3⟩, h4, ⟨hv, h6, ?_⟩, ?_⟩, ?_⟩
  · rintro x hx y hy rfl; exact (hd x hx).2.2.2 hy
  · rintro x hx y (hy | hy) rfl
    · exact (hd x hy).2.1 hx
    · exact h8 x hx x (.inr hy) rfl
  · rintro x (hx | hx | hx)
    · exact .inl (.inl hx)
    · exact .inr hx
    · exact .inl (.inr (.inr hx))

theorem localR_insert {h : PHeap} {parent v : PV} {w u : Value} {fp fv : List Nat} {i : Nat}
    (ho : Owns h parent w fp) (hn : fp.Nodup) (hv : Owns h v u fv) (hvn : fv.Nodup)
    (hd : ∀ x ∈ fv, x ∉ fp) (hi : ∀ vs, w = .arr vs → i ≤ vs.length) :
    LocalR h parent fp fv (seqInsert i u w) (insertPV h parent i v) := by
  cases w with
  | arr vs =>
    obtain ⟨a, ps, fs, rfl, hc, rfl, hos⟩ := owns_arr ho
    have hle := hi vs rfl
    simp only [seqInsert, insertPV, hc]
    have hs := (List.take_append_drop i vs).symm
    have hlen : (vs.take i).length = i := by simp; omega
    generalize vs.take i = l at hs hlen
    generalize vs.drop i = r at hs
    subst hs hlen
    obtain ⟨g1, g2, _⟩ := split_len (ownsAll_length hos)
    generalize ps.take l.length = l1 at g1 g2
    generalize ps.drop l.length = r1 at g1
    subst g1
    obtain ⟨fl, fr, rfl, h1, h2⟩ := ownsAll_split g2 hos
    rw [insertIdx_append, ← g2, insertIdx_append]
    obtain ⟨n1, n2⟩ := nodup_mid (fq := []) hn hvn hd
    exact localR_list (ownsAll_append h1 (.cons hv h2)) n1 n2
  | obj kvs =>
    obtain ⟨a, ms, fs, rfl, hc, rfl, _, _⟩ := owns_obj ho
    simp [seqInsert, insertPV, hc, LocalR]
  | _ =>
    obtain ⟨s, rfl, _, _⟩ := owns_scalar ho (by simp) (by simp)
    simp [seqInsert, insertPV, LocalR]

theorem localR_setItem {h : PHeap} {parent v : PV} {w u : Value} {fp fv : List Nat} {i : Nat}
    (ho : Owns h parent w fp) (hn : fp.Nodup) (hv : Owns h v u fv) (hvn : fv.Nodup)
    (hd : ∀ x ∈ fv, x ∉ fp) (hi : ∀ vs, w = .arr vs → i < vs.length) :
    LocalR h parent fp fv (seqSet i u w) (setItemPV h parent i v) := by
  cases w with
  | arr vs =>
    obtain ⟨a, ps, fs, rfl, hc, rfl, hos⟩ := owns_arr ho
    have hlt := hi vs rfl
    simp only [seqSet, setItemPV, hc]
    obtain ⟨hs, hlen⟩ := getElem?_split (List.getElem?_eq_getElem hlt)
    generalize vs.take i = l at hs hlen
    generalize vs.drop (i + 1) = r at hs
    generalize vs[i] = x at hs
    subst hs hlen
    obtain ⟨l1, q, r1, fl, fq, fr, rfl, hl, rfl, h1, h2, h3⟩ := owns_item hos
    rw [set_split, ← hl, set_split]
    obtain ⟨n1, n2⟩ := nodup_mid hn hvn hd
    exact localR_list (ownsAll_append h1 (.cons hv h3)) n1 n2
  | obj kvs =>
    obtain ⟨a, ms, fs, rfl, hc, rfl, _, _⟩ := owns_obj ho
    simp [seqSet, setItemPV, hc, LocalR]
  | _ =>
    obtain ⟨s, rfl, _, _⟩ := owns_scalar ho (by simp) (by simp)
    simp [seqSet, setItemPV, LocalR]

theorem localR_delItem {h : PHeap} {parent : PV} {w : Value} {fp : List Nat} {i : Nat}
    (ho : Owns h parent w fp) (hn : fp.Nodup) (hi : ∀ vs, w = .arr vs → i < vs.length) :
    LocalR h parent fp [] (seqDel i w) (delItemPV h parent i) := by
  cases w with
  | arr vs =>
    obtain ⟨a, ps, fs, rfl, hc, rfl, hos⟩ := owns_arr ho
    have hlt := hi vs rfl
    simp only [seqDel, delItemPV, hc]
    obtain ⟨hs, hlen⟩ := getElem?_split (List.getElem?_eq_getElem hlt)
    generalize vs.take i = l at hs hlen
    generalize vs.drop (i + 1) = r at hs
    generalize vs[i] = x at hs
    subst hs hlen
    obtain ⟨l1, q, r1, fl, fq, fr, rfl, hl, rfl, h1, h2, h3⟩ := owns_item hos
    rw [eraseIdx_append, ← hl, eraseIdx_append]
    obtain ⟨n1, n2⟩ := nodup_mid (fv := []) hn .nil (by simp)
    exact localR_list (ownsAll_append h1 h3) n1 n2
  | obj kvs =>
    obtain ⟨a, ms, fs, rfl, hc, rfl, _, _⟩ := owns_obj ho
    simp [seqDel, delItemPV, hc, LocalR]
  | _ =>
    obtain ⟨s, rfl, _, _⟩ := owns_scalar ho (by simp) (by simp)
    simp [seqDel, delItemPV, LocalR]

theorem dset_split {β : Type} (k : String) (v : β) (d : List (String × β)) :
    (k ∉ dkeys d ∧ dset k v d = d ++ [(k, v)]) ∨
    ∃ l x r, d = l ++ (k, x) :: r ∧ k ∉ dkeys l ∧ dset k v d = l ++ (k, v) :: r := by
  cases h : dlookup k d with
  | none =>
    refine .inl ⟨dlookup_eq_none.1 h, dset_of_not_mem (dlookup_eq_none.1 h)⟩
  | some x =>
    obtain ⟨l, r, rfl, hl⟩ := dlookup_split.1 h
    exact .inr ⟨l, x, r, rfl, hl, dset_of_mem hl⟩

theorem localR_setKey {h : PHeap} {parent v : PV} {w u : Value} {fp fv : List Nat} {k : String}
    (ho : Owns h parent w fp) (hn : fp.Nodup) (hv : Owns h v u fv) (hvn : fv.Nodup)
    (hd : ∀ x ∈ fv, x ∉ fp) :
    LocalR h parent fp fv (mapSet k u w) (setKeyPV h parent k v) := by
  cases w with
  | obj kvs =>
    obtain ⟨a, ms, fs, rfl, hc, rfl, hk, hos⟩ := owns_obj ho
    simp only [mapSet, setKeyPV, hc]
    rcases dset_split k u kvs with ⟨h1, h2⟩ | ⟨l, x, r, rfl, hl, h2⟩
    · rw [h2, dset_of_not_mem (by rw [hk]; exact h1)]
      have hn' : (a :: (fs ++ ([] ++ []))).Nodup := by simpa using hn
      obtain ⟨n1, n2⟩ := nodup_mid (fl := fs) (fq := []) (fr := []) hn' hvn (by simpa using hd)
      refine localR_dict (f := fs ++ (fv ++ [])) (by simp [dkeys] at hk ⊢; exact hk) ?_ n1 (by simpa using n2)
      simp only [List.map_append, List.map_cons, List.map_nil]
      exact ownsAll_append hos (.cons hv .nil)
    · obtain ⟨m1, q, m2, fl, fq, fr, rfl, k1, k2, rfl, h3, h4, h5⟩ := owns_member hk hos
      rw [h2, dset_of_mem (by rw [k1]; exact hl)]
      obtain ⟨n1, n2⟩ := nodup_mid hn hvn hd
      refine localR_dict (by simp [dkeys] at k1 k2 ⊢; rw [k1, k2]) ?_ n1 n2
      simp only [List.map_append, List.map_cons]
      exact ownsAll_append h3 (.cons hv h5)
  | arr vs =>
    obtain ⟨a, ps, fs, rfl, hc, rfl, _⟩ := owns_arr ho
    simp [mapSet, setKeyPV, hc, LocalR]
  | _ =>
    obtain ⟨s, rfl, _, _⟩ := owns_scalar ho (by simp) (by simp)
    simp [mapSet, setKeyPV, LocalR]

theorem localR_delKey {h : PHeap} {parent : PV} {w : Value} {fp : List Nat} {k : String}
    (ho : Owns h parent w fp) (hn : fp.Nodup) (hi : ∀ kvs, w = .obj kvs → k ∈ dkeys kvs) :
    LocalR h parent fp [] (mapDel k w) (delKeyPV h parent k) := by
  cases w with
  | obj kvs =>
    obtain ⟨a, ms, fs, rfl, hc, rfl, hk, hos⟩ := owns_obj ho
    simp only [mapDel, delKeyPV, hc]
    cases hx : dlookup k kvs with
    | none => exact absurd (hi kvs rfl) (dlookup_eq_none.1 hx)
    | some x =>
      obtain ⟨l, r, rfl, hl⟩ := dlookup_split.1 hx
      obtain ⟨m1, q, m2, fl, fq, fr, rfl, k1, k2, rfl, h3, h4, h5⟩ := owns_member hk hos
      rw [derase_of_mem hl, derase_of_mem (by rw [k1]; exact hl)]
      obtain ⟨n1, n2⟩ := nodup_mid (fv := []) hn .nil (by simp)
      refine localR_dict (by simp [dkeys] at k1 k2 ⊢; rw [k1, k2]) ?_ n1 n2
      simp only [List.map_append]
      exact ownsAll_append h3 h5
  | arr vs =>
    obtain ⟨a, ps, fs, rfl, hc, rfl, _⟩ := owns_arr ho
    simp [mapDel, delKeyPV, hc, LocalR]
  | _ =>
    obtain ⟨s, rfl, _, _⟩ := owns_scalar ho (by simp) (by simp)
    simp [mapDel, delKeyPV, LocalR]

/-! ## Whole operations -/

/-- The call result `res` on a document with footprint `fp` refines the value-level result `vres`. -/
def Refines (h : PHeap) (fp : List Nat) (vres : Except Exc Value) (res : PHeap × Except Exc PV) :
    Prop :=
  h.next ≤ res.1.next ∧ (∀ b, b < h.next → b ∉ fp → res.1.cell b = h.cell b) ∧
  match vres with
  | .ok v => ∃ d fd, res.2 = .ok d ∧ Owns res.1 d v fd ∧ fd.Nodup ∧
      ∀ x ∈ fd, x < res.1.next ∧ (x ∈ fp ∨ h.next ≤ x)
  | .error e => res.2 = .error e

theorem refines_err {h : PHeap} {fp : List Nat} {e : Exc} : Refines h fp (.error e) (h, .error e) :=
  ⟨Nat.le_refl _, fun _ _ _ => rfl, rfl⟩

theorem nodeKind_eq {h : PHeap} {parent : PV} {w : Value} {fp : List Nat} (ho : Owns h parent w fp)
    (k : String) : nodeKindPV h parent k = nodeKind w k := by
  cases w with
  | arr vs =>
    obtain ⟨a, ps, fs, rfl, hc, rfl, hos⟩ := owns_arr ho
    simp only [nodeKindPV, hc, nodeKind, ownsAll_length hos]
  | obj kvs =>
    obtain ⟨a, ms, fs, rfl, hc, rfl, hk, hos⟩ := owns_obj ho
    simp only [nodeKindPV, hc, nodeKind, dlookup_keys hk]
  | _ =>
    obtain ⟨s, rfl, hs, _⟩ := owns_scalar ho (by simp) (by simp)
    cases s <;> cases hs <;> rfl

theorem nodePV_snoc {h : PHeap} (doc : PV) (ks : List String) (k : String) :
    nodePV h doc ⟨ks ++ [k]⟩ =
      match resolvePV h ks doc with
      | .error e => .error (if isPtrErr e then .patchError else e)
      | .ok parent =>
        match nodeKindPV h parent k with
        | .ok t => .ok (t, parent)
        | .error e => .error e := by
  unfold nodePV
  have : ¬ ((Ptr.mk (ks ++ [k])).len = 0) := by simp [Ptr.len]
  rw [if_neg this, parent_slice, item_last]
  cases resolvePV h ks doc <;> rfl

/-- Put a local result back into the document. -/
def putRes (ks : List String) (v : Value) (vl : Except Exc Value) : Except Exc Value :=
  match vl with
  | .error e => .error e
  | .ok v' => putAt ks v' v

theorem refines_local {h h1 : PHeap} {doc parent : PV} {v w : Value} {fp fq fv : List Nat}
    {ks : List String} {res : PHeap × Except Exc Unit} {vl : Except Exc Value}
    (hn : h.next ≤ h1.next) (hold : ∀ b, b < h.next → h1.cell b = h.cell b)
    (hlt : ∀ x ∈ fp, x < h.next) (hq : ∀ x ∈ fq, x ∈ fp) (hpo : Owns h1 parent w fq)
    (hfv : ∀ x ∈ fv, h.next ≤ x ∧ x < h1.next)
    (hput : ∀ h' w f', (∀ a ∈ fp, a ∉ fq → h'.cell a = h.cell a) → Owns h' parent w f' → f'.Nodup →
        (∀ x ∈ f', x ∈ fp → x ∈ fq) →
        ∃ d fd, putAt ks w v = .ok d ∧ Owns h' doc d fd ∧ fd.Nodup ∧ ∀ x ∈ fd, x ∈ fp ∨ x ∈ f')
    (hl : LocalR h1 parent fq fv vl res) :
    Refines h fp (putRes ks v vl) (thenDoc doc res) := by
  cases vl with
  | error e =>
    simp only [LocalR] at hl
    subst hl
    exact ⟨hn, fun b hb _ => hold b hb, rfl⟩
  | ok v' =>
    obtain ⟨r1, r2, r3, f', r4, r5, r6⟩ := hl
    have hp : ∀ b, b < h.next → b ∉ fq → res.1.cell b = h.cell b := by
      intro b hb hbq
      rw [r3 b ?_, hold b hb]
      rintro rfl
      cases hpo with
      | list => exact hbq (List.mem_cons_self ..)
      | dict => exact hbq (List.mem_cons_self ..)
    obtain ⟨d, fd, e1, e2, e3, e4⟩ := hput res.1 v' f' (fun a ha haq => hp a (hlt a ha) haq) r4 r5
      (fun x hx hxf => by
        rcases r6 x hx with h | h
        · exact h
        · have := hfv x h; have := hlt x hxf; omega)
    simp only [putRes, e1]
    unfold thenDoc
    rw [r1]
    refine ⟨by rw [r2]; exact hn, fun b hb hbf => hp b hb (fun h => hbf (hq b h)),
      doc, fd, rfl, e2, e3, fun x hx => ?_⟩
    simp only [r2]
    rcases e4 x hx with h | h
    · have := hlt x h; exact ⟨by omega, .inl h⟩
    · rcases r6 x h with h | h
      · have := hlt x (hq x h); exact ⟨by omega, .inl (hq x h)⟩
      · exact ⟨(hfv x h).2, .inr (hfv x h).1⟩

theorem nodup_map_add {n : Nat} {l : List Nat} (h : l.Nodup) : (l.map (n + ·)).Nodup := by
  induction l with
  | nil => exact .nil
  | cons a l ih =>
    rw [List.nodup_cons] at h
    rw [List.map_cons, List.nodup_cons]
    refine ⟨fun hm => ?_, ih h.2⟩
    obtain ⟨b, hb, he⟩ := List.mem_map.1 hm
    have : b = a := by omega
    exact h.1 (this ▸ hb)

theorem bounds_map {n : Nat} {l : List Nat} (h : ∀ x ∈ l, x < n) :
    ∀ x ∈ l.map (n + ·), n ≤ x ∧ x < n + n := by
  intro x hx
  obtain ⟨b, hb, rfl⟩ := List.mem_map.1 hx
  have := h b hb
  omega

theorem refines_add {h : PHeap} {doc value : PV} {v u : Value} {fp fv : List Nat} (path : Ptr)
    (ho : Owns h doc v fp) (hn : fp.Nodup) (hlt : ∀ x ∈ fp, x < h.next)
    (hv : Owns h value u fv) (hvn : fv.Nodup) (hvlt : ∀ x ∈ fv, x < h.next) :
    Refines h fp (patchAdd v path u) (addPV h doc path value) := by
  have hv' := owns_shift (x := value) hv
  have hvn' := nodup_map_add (n := h.next) hvn
  have hvb := bounds_map hvlt
  have hnx : h.next ≤ (h.deepcopy value).1.next := by simp [PHeap.deepcopy]
  have hold : ∀ b, b < h.next → (h.deepcopy value).1.cell b = h.cell b := fun b hb => deepcopy_cell hb
  rcases ptr_cases path with rfl | ⟨ks, k, rfl⟩
  · exact ⟨hnx, fun b hb _ => hold b hb, _, _, rfl, hv', hvn',
      fun x hx => ⟨(hvb x hx).2, .inr (hvb x hx).1⟩⟩
  · rw [patchAdd_snoc]
    unfold opAt addPV
    rw [nodePV_snoc]
    cases hr : resolvePlain ks v with
    | error e =>
      rw [resolve_err ho hr, resolvePlain_error hr]
      exact refines_err
    | ok w =>
      obtain ⟨q, fq, h1, h2, h3, h4, h5⟩ := focus ho hn hr
      simp only [h1, nodeKind_eq h2, addLocal]
      have h2' : Owns (h.deepcopy value).1 q w fq :=
        owns_frame h2 (fun a ha => hold a (hlt a (h3 a ha)))
      have hdis : ∀ x ∈ fv.map (h.next + ·), x ∉ fq := fun x hx hq => by
        have := hvb x hx; have := hlt x (h3 x hq); omega
      have fin : ∀ {vl res}, LocalR (h.deepcopy value).1 q fq (fv.map (h.next + ·)) vl res →
          Refines h fp (putRes ks v vl) (thenDoc doc res) :=
        fun {vl res} hl => refines_local (v := v) hnx hold hlt h3 h2' hvb h5 hl
      cases hk : nodeKind w k with
      | error e => exact refines_err
      | ok t =>
        cases t with
        | root => exact absurd hk nodeKind_not_root
        | item i =>
          refine fin (localR_insert h2' h4 hv' hvn' hdis (fun vs hw => ?_))
          subst hw
          have := (nodeSeq_item.1 hk).2
          omega
        | itemNew i =>
          refine fin (localR_insert h2' h4 hv' hvn' hdis (fun vs hw => ?_))
          subst hw
          have := (nodeSeq_new.1 hk).2
          omega
        | prop k' => exact fin (localR_setKey h2' h4 hv' hvn' hdis)
        | propNew k' => exact fin (localR_setKey h2' h4 hv' hvn' hdis)

theorem refines_replace {h : PHeap} {doc value : PV} {v u : Value} {fp fv : List Nat} (path : Ptr)
    (ho : Owns h doc v fp) (hn : fp.Nodup) (hlt : ∀ x ∈ fp, x < h.next)
    (hv : Owns h value u fv) (hvn : fv.Nodup) (hvlt : ∀ x ∈ fv, x < h.next) :
    Refines h fp (patchReplace v path u) (replacePV h doc path value) := by
  have hv' := owns_shift (x := value) hv
  have hvn' := nodup_map_add (n := h.next) hvn
  have hvb := bounds_map hvlt
  have hnx : h.next ≤ (h.deepcopy value).1.next := by simp [PHeap.deepcopy]
  have hold : ∀ b, b < h.next → (h.deepcopy value).1.cell b = h.cell b := fun b hb => deepcopy_cell hb
  rcases ptr_cases path with rfl | ⟨ks, k, rfl⟩
  · exact ⟨hnx, fun b hb _ => hold b hb, _, _, rfl, hv', hvn',
      fun x hx => ⟨(hvb x hx).2, .inr (hvb x hx).1⟩⟩
  · rw [patchReplace_snoc]
    unfold opAt replacePV
    rw [nodePV_snoc]
    cases hr : resolvePlain ks v with
    | error e =>
      rw [resolve_err ho hr, resolvePlain_error hr]
      exact refines_err
    | ok w =>
      obtain ⟨q, fq, h1, h2, h3, h4, h5⟩ := focus ho hn hr
      simp only [h1, nodeKind_eq h2, replaceLocal]
      have h2' : Owns (h.deepcopy value).1 q w fq :=
        owns_frame h2 (fun a ha => hold a (hlt a (h3 a ha)))
      have hdis : ∀ x ∈ fv.map (h.next + ·), x ∉ fq := fun x hx hq => by
        have := hvb x hx; have := hlt x (h3 x hq); omega
      have fin : ∀ {vl res}, LocalR (h.deepcopy value).1 q fq (fv.map (h.next + ·)) vl res →
          Refines h fp (putRes ks v vl) (thenDoc doc res) :=
        fun {vl res} hl => refines_local (v := v) hnx hold hlt h3 h2' hvb h5 hl
      cases hk : nodeKind w k with
      | error e => exact refines_err
      | ok t =>
        cases t with
        | root => exact absurd hk nodeKind_not_root
        | item i =>
          refine fin (localR_setItem h2' h4 hv' hvn' hdis (fun vs hw => ?_))
          subst hw
          exact (nodeSeq_item.1 hk).2
        | prop k' => exact fin (localR_setKey h2' h4 hv' hvn' hdis)
        | itemNew i => exact ⟨hnx, fun b hb _ => hold b hb, rfl⟩
        | propNew i => exact ⟨hnx, fun b hb _ => hold b hb, rfl⟩

theorem nodeKind_prop {w : Value} {k k' : String} (h : nodeKind w k = .ok (.prop k')) :
    k' = k ∧ ∀ kvs, w = .obj kvs → k ∈ dkeys kvs := by
  have hs : ∀ n, nodeSeq n k ≠ .ok (.prop k') := by
    intro n hh
    rcases nodeSeq_ok_cases hh with ⟨i, e⟩ | e <;> cases e
  cases w with
  | arr vs => exact absurd h (hs _)
  | str s => exact absurd h (hs _)
  | obj kvs =>
    simp only [nodeKind] at h
    split at h
    · rename_i hk
      cases h
      exact ⟨rfl, fun kvs e => by cases e; exact dlookup_isSome.1 hk⟩
    · cases h
  | _ => cases h

theorem refines_remove {h : PHeap} {doc : PV} {v : Value} {fp : List Nat} (path : Ptr)
    (ho : Owns h doc v fp) (hn : fp.Nodup) (hlt : ∀ x ∈ fp, x < h.next) :
    Refines h fp (patchRemove v path) (removePV h doc path) := by
  rcases ptr_cases path with rfl | ⟨ks, k, rfl⟩
  · exact ⟨Nat.le_refl _, fun b hb _ => rfl, _, _, rfl, .sc, .nil, by simp⟩
  · rw [patchRemove_snoc]
    unfold opAt removePV
    rw [nodePV_snoc]
    cases hr : resolvePlain ks v with
    | error e =>
      rw [resolve_err ho hr, resolvePlain_error hr]
      exact refines_err
    | ok w =>
      obtain ⟨q, fq, h1, h2, h3, h4, h5⟩ := focus ho hn hr
      simp only [h1, nodeKind_eq h2, removeLocal]
      have fin : ∀ {vl res}, LocalR h q fq [] vl res →
          Refines h fp (putRes ks v vl) (thenDoc doc res) :=
        fun {vl res} hl => refines_local (v := v) (Nat.le_refl _) (fun _ _ => rfl) hlt h3 h2
          (by simp) h5 hl
      cases hk : nodeKind w k with
      | error e => exact refines_err
      | ok t =>
        cases t with
        | root => exact absurd hk nodeKind_not_root
        | item i =>
          refine fin (localR_delItem h2 h4 (fun vs hw => ?_))
          subst hw
          exact (nodeSeq_item.1 hk).2
        | prop k' =>
          obtain ⟨rfl, hm⟩ := nodeKind_prop hk
          exact fin (localR_delKey h2 h4 hm)
        | itemNew i => exact refines_err
        | propNew i => exact refines_err

theorem refines_copy {h : PHeap} {doc : PV} {v : Value} {fp : List Nat} (path from_ : Ptr)
    (ho : Owns h doc v fp) (hn : fp.Nodup) (hlt : ∀ x ∈ fp, x < h.next) :
    Refines h fp (patchCopy v path from_) (copyPV h doc path from_) := by
  unfold patchCopy copyPV Ptr.evaluate
  cases hr : resolvePlain from_.keys v with
  | error e => rw [resolve_err ho hr]; exact refines_err
  | ok w =>
    obtain ⟨q, fq, h1, h2, h3, h4, _⟩ := focus ho hn hr
    simp only [h1]
    exact refines_add path ho hn hlt h2 h4 (fun x hx => hlt x (h3 x hx))

theorem refines_test {h : PHeap} {doc value : PV} {v u : Value} {fp fv : List Nat} (path : Ptr)
    (ho : Owns h doc v fp) (hn : fp.Nodup) (hlt : ∀ x ∈ fp, x < h.next)
    (hv : Owns h value u fv) (hvn : fv.Nodup) (hvlt : ∀ x ∈ fv, x < h.next) :
    Refines h fp (patchTest v path u) (testPV h doc path value) := by
  have hdoc : Refines h fp (.ok v) (h, .ok doc) :=
    ⟨Nat.le_refl _, fun _ _ _ => rfl, _, _, rfl, ho, hn, fun x hx => ⟨hlt x hx, .inl hx⟩⟩
  have hcmp : Refines h fp
      (match path.evaluate v with
        | .error e => .error e
        | .ok x => if jsonNe x u then .error .patchError else .ok v)
      (match resolvePV h path.keys doc with
        | .error e => (h, .error e)
        | .ok q => if jsonNe (readPV h h.next q) (readPV h h.next value) then (h, .error .patchError)
          else (h, .ok doc)) := by
    unfold Ptr.evaluate
    cases hr : resolvePlain path.keys v with
    | error e => rw [resolve_err ho hr]; exact refines_err
    | ok w =>
      obtain ⟨q, fq, h1, h2, h3, h4, _⟩ := focus ho hn hr
      simp only [h1, tree_read h2 h4 (fun x hx => hlt x (h3 x hx)), tree_read hv hvn hvlt]
      split
      · exact refines_err
      · exact hdoc
  unfold patchTest testPV
  have hnode : (∃ e, patchNode v path = .error e ∧ nodePV h doc path = .error e) ∨
      ∃ t q, patchNode v path = .ok t ∧ nodePV h doc path = .ok (t, q) := by
    rcases ptr_cases path with rfl | ⟨ks, k, rfl⟩
    · exact .inr ⟨_, _, rfl, rfl⟩
    · rw [patchNode_snoc, nodePV_snoc]
      cases hr : resolvePlain ks v with
      | error e => rw [resolve_err ho hr, resolvePlain_error hr]; exact .inl ⟨_, rfl, rfl⟩
      | ok w =>
        obtain ⟨q, fq, h1, h2, h3, h4, _⟩ := focus ho hn hr
        simp only [h1, nodeKind_eq h2]
        cases nodeKind w k with
        | error e => exact .inl ⟨_, rfl, rfl⟩
        | ok t => exact .inr ⟨_, _, rfl, rfl⟩
  rcases hnode with ⟨e, h1, h2⟩ | ⟨t, q, h1, h2⟩
  · rw [h1, h2]; exact refines_err
  · rw [h1, h2]
    cases t with
    | root => exact hcmp
    | item i => exact hcmp
    | prop k => exact hcmp
    | itemNew i => exact refines_err
    | propNew k => exact refines_err

/-- `remove` changes no object but the parent. -/
theorem removePV_cell {h : PHeap} {doc q : PV} {ks : List String} {k : String}
    (hq : resolvePV h ks doc = .ok q) {b : Nat} (hb : PV.ref b ≠ q) :
    (removePV h doc ⟨ks ++ [k]⟩).1.cell b = h.cell b := by
  unfold removePV
  rw [nodePV_snoc, hq]
  simp only
  cases nodeKindPV h q k with
  | error e => rfl
  | ok t =>
    cases q with
    | sc s => cases t <;> rfl
    | ref a =>
      have hba : b ≠ a := fun e => hb (by rw [e])
      cases t with
      | item i => simp only [delItemPV]; cases h.cell a <;> first | rfl | exact setCell_ne hba
      | prop i => simp only [delKeyPV]; cases h.cell a <;> first | rfl | exact setCell_ne hba
      | _ => rfl

theorem resolvePV_append {h : PHeap} {ks ks' : List String} {p q : PV}
    (hq : resolvePV h ks p = .ok q) : resolvePV h (ks ++ ks') p = resolvePV h ks' q := by
  induction ks generalizing p with
  | nil => cases p <;> cases hq <;> rfl
  | cons k ks ih =>
    cases p with
    | sc s => cases hq
    | ref a =>
      rw [List.cons_append]
      simp only [resolvePV] at hq ⊢
      cases hc : h.cell a with
      | dict ms =>
        simp only [hc] at hq ⊢
        cases hl : dlookup k ms with
        | none => simp [hl] at hq
        | some x => simp only [hl] at hq ⊢; exact ih hq
      | list ps =>
        simp only [hc] at hq ⊢
        split at hq
        · rename_i hi
          simp only [hi, if_true]
          cases hp : pyInt k with
          | none => simp [hp] at hq
          | some i =>
            simp only [hp] at hq ⊢
            cases hx : pyIndex ps i with
            | none => simp [hx] at hq
            | some x => simp only [hx] at hq ⊢; exact ih hq
        · cases hq

theorem resolvePlain_snoc {ks : List String} {k : String} {v w : Value}
    (h : resolvePlain (ks ++ [k]) v = .ok w) :
    ∃ u, resolvePlain ks v = .ok u ∧ resolvePlain [k] u = .ok w := by
  induction ks generalizing v with
  | nil => exact ⟨v, by cases v <;> rfl, h⟩
  | cons k' ks ih =>
    rw [List.cons_append] at h
    cases v with
    | arr vs =>
      simp only [resolvePlain] at h ⊢
      split at h
      · rename_i hi
        simp only [hi, if_true]
        cases hp : pyInt k' with
        | none => simp [hp] at h
        | some i =>
          simp only [hp] at h ⊢
          cases hx : pyIndex vs i with
          | none => simp [hx] at h
          | some x => simp only [hx] at h ⊢; exact ih h
      · cases h
    | obj kvs =>
      simp only [resolvePlain] at h ⊢
      cases hx : dlookup k' kvs with
      | none => simp [hx] at h
      | some x => simp only [hx] at h ⊢; exact ih h
    | _ => simp [resolvePlain] at h

/-- A child does not contain its parent. -/
theorem child_not_parent {h : PHeap} {a : Nat} {q : PV} {u w : Value} {k : String} {fq : List Nat}
    (ho : Owns h (.ref a) u fq) (hn : fq.Nodup) (hw : resolvePlain [k] u = .ok w)
    (hq : resolvePV h [k] (.ref a) = .ok q) : ∃ fw, Owns h q w fw ∧ fw.Nodup ∧ a ∉ fw ∧ ∀ x ∈ fw, x ∈ fq := by
  cases u with
  | arr vs =>
    obtain ⟨a', ps, fs, he, hc, rfl, hos⟩ := owns_arr ho
    cases he
    simp only [resolvePlain, resolvePV, hc] at hw hq
    by_cases hi : jsonIndexRe.fullmatch k.toList = true
    · obtain ⟨n, rfl⟩ := (isIndex_iff k).1 hi
      simp only [hi, if_true, pyInt_natStr, pyIndex_natCast] at hw hq
      cases hx : vs[n]? with
      | none => simp [hx] at hw
      | some x =>
        simp only [hx, Except.ok.injEq] at hw
        subst hw
        obtain ⟨hs, hlen⟩ := getElem?_split hx
        generalize vs.take n = l at hs hlen
        generalize vs.drop (n + 1) = r at hs
        subst hs
        obtain ⟨l1, q', r1, fl, fq, fr, rfl, hl, rfl, h1, h2, h3⟩ := owns_item hos
        have hget : (l1 ++ q' :: r1)[n]? = some q' := by rw [← hlen, ← hl]; simp
        simp only [hget, Except.ok.injEq] at hq
        subst hq
        simp only [List.nodup_cons, List.nodup_append, List.mem_append, not_or] at hn
        exact ⟨fq, h2, hn.2.2.1.1, hn.1.2.1, fun x hx => by simp [hx]⟩
    · simp [hi] at hw
  | obj kvs =>
    obtain ⟨a', ms, fs, he, hc, rfl, hk, hos⟩ := owns_obj ho
    cases he
    simp only [resolvePlain, resolvePV, hc] at hw hq
    cases hx : dlookup k kvs with
    | none => simp [hx] at hw
    | some x =>
      simp only [hx, Except.ok.injEq] at hw
      subst hw
      obtain ⟨l, r, rfl, hl⟩ := dlookup_split.1 hx
      obtain ⟨m1, q', m2, fl, fq, fr, rfl, k1, k2, rfl, h1, h2, h3⟩ := owns_member hk hos
      have hget : dlookup k (m1 ++ (k, q') :: m2) = some q' :=
        dlookup_split.2 ⟨m1, m2, rfl, by rw [k1]; exact hl⟩
      simp only [hget, Except.ok.injEq] at hq
      subst hq
      simp only [List.nodup_cons, List.nodup_append, List.mem_append, not_or] at hn
      exact ⟨fq, h2, hn.2.2.1.1, hn.1.2.1, fun x hx => by simp [hx]⟩
  | _ => simp [resolvePlain] at hw

theorem refines_trans {h h1 : PHeap} {fp f1 : List Nat} {vres : Except Exc Value}
    {res : PHeap × Except Exc PV} (hn : h.next ≤ h1.next)
    (hold : ∀ b, b < h.next → b ∉ fp → h1.cell b = h.cell b)
    (hf : ∀ x ∈ f1, x ∈ fp ∨ h.next ≤ x) (hr : Refines h1 f1 vres res) : Refines h fp vres res := by
  obtain ⟨r1, r2, r3⟩ := hr
  refine ⟨Nat.le_trans hn r1, fun b hb hbf => ?_, ?_⟩
  · rw [r2 b (by omega) (fun h => ?_), hold b hb hbf]
    rcases hf b h with h | h
    · exact hbf h
    · omega
  · cases vres with
    | error e => exact r3
    | ok v =>
      obtain ⟨d, fd, e1, e2, e3, e4⟩ := r3
      refine ⟨d, fd, e1, e2, e3, fun x hx => ⟨(e4 x hx).1, ?_⟩⟩
      rcases (e4 x hx).2 with h | h
      · exact hf x h
      · exact .inr (by omega)

theorem refines_move {h : PHeap} {doc : PV} {v : Value} {fp : List Nat} (path from_ : Ptr)
    (ho : Owns h doc v fp) (hn : fp.Nodup) (hlt : ∀ x ∈ fp, x < h.next) :
    Refines h fp (patchMove v path from_) (movePV h doc path from_) := by
  unfold patchMove movePV Ptr.evaluate
  cases hr : resolvePlain from_.keys v with
  | error e => rw [resolve_err ho hr]; exact refines_err
  | ok w =>
    obtain ⟨q, fq, h1, h2, h3, h4, _⟩ := focus ho hn hr
    simp only [h1]
    have hrem := refines_remove from_ ho hn hlt
    -- the moved object is intact after the removal
    have hval : ∃ fw, Owns (removePV h doc from_).1 q w fw ∧ fw.Nodup ∧ ∀ x ∈ fw, x < h.next := by
      rcases ptr_cases from_ with rfl | ⟨ks, k, rfl⟩
      · exact ⟨fq, h2, h4, fun x hx => hlt x (h3 x hx)⟩
      · obtain ⟨u, hu1, hu2⟩ := resolvePlain_snoc hr
        obtain ⟨qp, fqp, p1, p2, p3, p4, _⟩ := focus ho hn hu1
        rw [resolvePV_append p1] at h1
        cases qp with
        | sc s =>
          simp [resolvePV] at h1
        | ref a =>
          obtain ⟨fw, w1, w2, w3, w4⟩ := child_not_parent p2 p4 hu2 h1
          refine ⟨fw, owns_frame w1 (fun b hb => removePV_cell p1 ?_), w2,
            fun x hx => hlt x (p3 x (w4 x hx))⟩
          intro e; cases e; exact w3 hb
    rcases hrm : removePV h doc from_ with ⟨h', r⟩
    rw [hrm] at hrem hval
    obtain ⟨r1, r2, r3⟩ := hrem
    cases hpr : patchRemove v from_ with
    | error e =>
      rw [hpr] at r3
      simp only at r3
      subst r3
      exact ⟨r1, r2, rfl⟩
    | ok v' =>
      rw [hpr] at r3
      obtain ⟨d, fd, e1, e2, e3, e4⟩ := r3
      simp only at e1 e2 e4 r1 r2 hval
      subst e1
      obtain ⟨fw, w1, w2, w3⟩ := hval
      exact refines_trans r1 r2 (fun x hx => (e4 x hx).2)
        (refines_add path e2 e3 (fun x hx => (e4 x hx).1) w1 w2 (fun x hx => by have := w3 x hx; omega))

/-- An operation in the heap denotes an operation on values. -/
def POp.Denotes (h : PHeap) (o : POp) (vo : PatchOp) : Prop :=
  o.op = vo.op ∧ o.path = vo.path ∧ o.from_ = vo.from_ ∧ Tree h o.value vo.value

theorem refines_apply {h : PHeap} {doc : PV} {v : Value} {fp : List Nat} {o : POp} {vo : PatchOp}
    (hd : o.Denotes h vo) (ho : Owns h doc v fp) (hn : fp.Nodup) (hlt : ∀ x ∈ fp, x < h.next) :
    Refines h fp (vo.apply v) (o.apply h doc) := by
  obtain ⟨d1, d2, d3, fv, v1, v2, v3⟩ := hd
  unfold POp.apply PatchOp.apply
  rw [d1, d2, d3]
  cases vo.op with
  | add => exact refines_add _ ho hn hlt v1 v2 v3
  | remove => exact refines_remove _ ho hn hlt
  | replace => exact refines_replace _ ho hn hlt v1 v2 v3
  | move =>
    cases vo.from_ with
    | none => exact refines_err
    | some f => exact refines_move _ _ ho hn hlt
  | copy =>
    cases vo.from_ with
    | none => exact refines_err
    | some f => exact refines_copy _ _ ho hn hlt
  | test => exact refines_test _ ho hn hlt v1 v2 v3

/-- Operations in the heap below `base` denote operations on values. -/
inductive DenotesAll (h : PHeap) (base : Nat) : List POp → List PatchOp → Prop
  | nil : DenotesAll h base [] []
  | cons {o vo os vos} : o.op = vo.op → o.path = vo.path → o.from_ = vo.from_ →
      (∃ fv, Owns h o.value vo.value fv ∧ fv.Nodup ∧ ∀ x ∈ fv, x < base) →
      DenotesAll h base os vos → DenotesAll h base (o :: os) (vo :: vos)

theorem DenotesAll.frame {h h' : PHeap} {base : Nat} {os : List POp} {vos : List PatchOp}
    (hd : DenotesAll h base os vos) (hf : ∀ b, b < base → h'.cell b = h.cell b) :
    DenotesAll h' base os vos := by
  induction hd with
  | nil => exact .nil
  | cons a b c d _ ih =>
    obtain ⟨fv, e1, e2, e3⟩ := d
    exact .cons a b c ⟨fv, owns_frame e1 (fun x hx => hf x (e3 x hx)), e2, e3⟩ ih

theorem refines_applyAll {base : Nat} {os : List POp} {vos : List PatchOp} {h : PHeap} {doc : PV}
    {v : Value} {fp : List Nat} (hd : DenotesAll h base os vos) (hb : base ≤ h.next)
    (ho : Owns h doc v fp) (hn : fp.Nodup) (hlt : ∀ x ∈ fp, base ≤ x ∧ x < h.next) :
    Refines h fp (patchApplyAll vos v) (applyAllPV os h doc) := by
  induction os generalizing vos h doc v fp with
  | nil =>
    cases hd
    exact ⟨Nat.le_refl _, fun _ _ _ => rfl, _, _, rfl, ho, hn, fun x hx => ⟨(hlt x hx).2, .inl hx⟩⟩
  | cons o os ih =>
    cases hd with
    | @cons _ vo _ vos a b c d e =>
      obtain ⟨fv, e1, e2, e3⟩ := d
      have hr := refines_apply (o := o) (vo := vo)
        ⟨a, b, c, fv, e1, e2, fun x hx => by have := e3 x hx; omega⟩ ho hn (fun x hx => (hlt x hx).2)
      simp only [applyAllPV, patchApplyAll]
      rcases hap : o.apply h doc with ⟨h1, r⟩
      rw [hap] at hr
      obtain ⟨r1, r2, r3⟩ := hr
      cases hva : vo.apply v with
      | error ex =>
        rw [hva] at r3
        simp only at r3
        subst r3
        exact ⟨r1, r2, rfl⟩
      | ok v' =>
        rw [hva] at r3
        obtain ⟨dd, fd, x1, x2, x3, x4⟩ := r3
        simp only at x1 x2 x4 r1 r2
        subst x1
        refine refines_trans r1 r2 (fun x hx => (x4 x hx).2) (ih (e.frame (fun b hb' => ?_))
          (Nat.le_trans hb r1) x2 x3 (fun x hx => ⟨?_, (x4 x hx).1⟩))
        · exact r2 b (by omega) (fun hbf => by have := hlt b hbf; omega)
        · rcases (x4 x hx).2 with h | h
          · exact (hlt x h).1
          · omega

theorem refines_evaluate {os : List POp} {vos : List PatchOp} {h : PHeap} {doc : PV} {v : Value}
    (hd : DenotesAll h h.next os vos) (ht : Tree h doc v) :
    (∀ b, b < h.next → (evaluatePV os h doc).1.cell b = h.cell b) ∧
    match patchEvaluate vos v with
    | .ok v' => ∃ d, (evaluatePV os h doc).2 = .ok d ∧ Tree (evaluatePV os h doc).1 d v'
    | .error e => (evaluatePV os h doc).2 = .error e := by
  obtain ⟨fp, h1, h2, h3⟩ := ht
  have hold : ∀ b, b < h.next → (h.deepcopy doc).1.cell b = h.cell b := fun b hb => deepcopy_cell hb
  have hb := bounds_map h3
  have hr := refines_applyAll (base := h.next) (h := (h.deepcopy doc).1) (hd.frame hold)
    (by simp [PHeap.deepcopy]) (owns_shift (x := doc) h1) (nodup_map_add h2)
    (fun x hx => ⟨(hb x hx).1, (hb x hx).2⟩)
  obtain ⟨r1, r2, r3⟩ := hr
  refine ⟨fun b hb' => ?_, ?_⟩
  · refine (r2 b (by simp [PHeap.deepcopy]; omega) (fun hbf => ?_)).trans (hold b hb')
    have := hb b hbf; omega
  · unfold patchEvaluate
    cases hp : patchApplyAll vos v with
    | error e => rw [hp] at r3; exact r3
    | ok v' =>
      rw [hp] at r3
      obtain ⟨d, fd, e1, e2, e3, e4⟩ := r3
      exact ⟨d, e1, fd, e2, e3, fun x hx => (e4 x hx).1⟩

end Jschon
