import Verif.Proof.FromBfs
/-
`Splitted` in general: whatever the iterators are, the visits come in breadth-first order.
-/
namespace Trees
set_option linter.unusedSimpArgs false
variable {α β γ σ ι κ δ : Type}
open RTree

theorem visits_nil : visits ([] : List (RTree α)) = [] := by simp [visits]
theorem visits_cons (t : RTree α) (ts) : visits (t :: ts) = (t.data, szOf t) :: visits (ts ++ t.kids) := by
  simp [visits, qbfs_cons]
theorem length_visits (ts : List (RTree α)) : (visits ts).length = countL ts := by simp [visits, length_qbfs]

theorem szOf_map (f : α → β) (t : RTree α) : szOf (t.map f) = szOf t := by
  simp only [szOf, kids_map, countL_mapL]; simp [mapL_eq]

theorem visits_mapL (f : α → β) (ts : List (RTree α)) :
    visits (mapL f ts) = (visits ts).map (fun v => (f v.1, v.2)) := by
  simp [visits, qbfs_mapL, Function.comp_def, data_map, szOf_map]

/-- `I h s tss`: in heap `h` the queue is `s` and the iterators in it will yield the trees `tss`. -/
structure SrcSpec (S : Src α ι κ δ) (I : Heap α → List ι → List (List (RTree δ)) → Prop) : Prop where
  len : ∀ h s tss, I h s tss → s.length = tss.length
  nil : ∀ h it rest tss, I h (it :: rest) ([] :: tss) → ∃ it' h1 h2, S.next it h = .ok (none, it') h1 ∧
    S.drop it' h1 = .ok () h2 ∧ I h2 rest tss
  cons : ∀ h it rest t us tss, I h (it :: rest) ((t :: us) :: tss) → ∃ k it' ch h1 h2, S.next it h = .ok (some k, it') h1 ∧
    S.split k h1 = .ok (t.data, ch, countL t.kids) h2 ∧ S.len ch h2 = .ok t.kids.length h2 ∧
    I h2 (it' :: rest ++ [ch]) (us :: tss ++ [t.kids])

section
variable {S : Src α ι κ δ} {I : Heap α → List ι → List (List (RTree δ)) → Prop}

theorem SrcSpec.next_nil (hS : SrcSpec S I) : ∀ (s : List ι) (h : Heap α) tss, I h s tss → tss.flatten = [] →
    ∃ h', splittedNext S s h = .ok (none, []) h' ∧ I h' [] [] := by
  intro s
  induction s with
  | nil =>
    intro h tss hI _
    have := hS.len _ _ _ hI
    have : tss = [] := by simpa using this.symm
    subst this
    exact ⟨h, rfl, hI⟩
  | cons it rest ih =>
    intro h tss hI hf
    cases tss with
    | nil => have := hS.len _ _ _ hI; simp at this
    | cons ts tss =>
      simp only [List.flatten_cons, List.append_eq_nil_iff] at hf
      obtain ⟨rfl, hf⟩ := hf
      obtain ⟨it', h1, h2, e1, e2, hI2⟩ := hS.nil _ _ _ _ hI
      obtain ⟨h', e3, hI3⟩ := ih h2 tss hI2 hf
      refine ⟨h', ?_, hI3⟩
      simp only [splittedNext, M.bind_apply, e1, Res.bind_ok, e2, e3]

theorem SrcSpec.next_cons (hS : SrcSpec S I) : ∀ (s : List ι) (h : Heap α) tss t r, I h s tss → tss.flatten = t :: r →
    ∃ h' s' tss', splittedNext S s h = .ok (some (t.data, szOf t), s') h' ∧ I h' s' tss' ∧ tss'.flatten = r ++ t.kids := by
  intro s
  induction s with
  | nil =>
    intro h tss t r hI hf
    have := hS.len _ _ _ hI
    have : tss = [] := by simpa using this.symm
    subst this
    simp at hf
  | cons it rest ih =>
    intro h tss t r hI hf
    cases tss with
    | nil => simp at hf
    | cons ts tss =>
      cases ts with
      | nil =>
        simp only [List.flatten_cons, List.nil_append] at hf
        obtain ⟨it', h1, h2, e1, e2, hI2⟩ := hS.nil _ _ _ _ hI
        obtain ⟨h', s', tss', e3, hI3, hf'⟩ := ih h2 tss t r hI2 hf
        refine ⟨h', s', tss', ?_, hI3, hf'⟩
        simp only [splittedNext, M.bind_apply, e1, Res.bind_ok, e2, e3]
      | cons u us =>
        simp only [List.flatten_cons, List.cons_append, List.cons.injEq] at hf
        obtain ⟨rfl, rfl⟩ := hf
        obtain ⟨k, it', ch, h1, h2, e1, e2, e3, hI2⟩ := hS.cons _ _ _ _ _ _ hI
        refine ⟨h2, _, _, ?_, hI2, by simp⟩
        simp only [splittedNext, M.bind_apply, e1, Res.bind_ok, e2, e3, M.pure_apply, szOf]

/-- Calling `next()` `k` times. -/
theorem SrcSpec.drive (hS : SrcSpec S I) : ∀ (k : Nat) (s : List ι) (h : Heap α) tss ts, I h s tss → tss.flatten = ts →
    ∃ h' s' tss', driveVisits (splittedNext S) k s h = .ok ((List.range k).map (fun i => (visits ts)[i]?), s') h' ∧
      I h' s' tss' ∧ tss'.flatten = (ts ++ ((qbfs ts).take k).flatMap kids).drop k := by
  intro k
  induction k with
  | zero => intro s h tss ts hI hf; exact ⟨h, s, tss, rfl, hI, by simp [hf]⟩
  | succ k ih =>
    intro s h tss ts hI hf
    cases ts with
    | nil =>
      obtain ⟨h1, e1, hI1⟩ := hS.next_nil s h tss hI hf
      obtain ⟨h2, s2, tss2, e2, hI2, hf2⟩ := ih [] h1 [] [] hI1 rfl
      refine ⟨h2, s2, tss2, ?_, hI2, by simpa using hf2⟩
      simp only [driveVisits, M.bind_apply, e1, Res.bind_ok, e2, M.pure_apply]
      simp [visits_nil, List.range_succ_eq_map, Function.comp_def]
    | cons t r =>
      obtain ⟨h1, s1, tss1, e1, hI1, hf1⟩ := hS.next_cons s h tss t r hI hf
      obtain ⟨h2, s2, tss2, e2, hI2, hf2⟩ := ih s1 h1 tss1 _ hI1 hf1
      refine ⟨h2, s2, tss2, ?_, hI2, ?_⟩
      · simp only [driveVisits, M.bind_apply, e1, Res.bind_ok, e2, M.pure_apply]
        simp [visits_cons, List.range_succ_eq_map, Function.comp_def]
      · rw [hf2, qbfs_cons]
        simp

/-- The visits still to come. -/
def SrcR (I : Heap α → List ι → List (List (RTree δ)) → Prop) (s : List ι) (h : Heap α) (xs : List (δ × Size)) : Prop :=
  ∃ tss, I h s tss ∧ xs = visits tss.flatten

theorem SrcSpec.ok (hS : SrcSpec S I) (hF : S.Framed) : SrcOK (splittedNext S) (SrcR I) := by
  refine ⟨hF.splittedNext, ?_, ?_⟩
  · rintro s h x xs ⟨tss, hI, hx⟩
    cases hf : tss.flatten with
    | nil => rw [hf, visits_nil] at hx; simp at hx
    | cons t r =>
      rw [hf, visits_cons, List.cons.injEq] at hx
      obtain ⟨rfl, rfl⟩ := hx
      obtain ⟨h', s', tss', e, hI', hf'⟩ := hS.next_cons s h tss t r hI hf
      exact ⟨s', h', e, tss', hI', by rw [hf']⟩
  · rintro s h ⟨tss, hI, hx⟩
    have hf : tss.flatten = [] := by
      have := congrArg List.length hx
      rw [length_visits] at this
      exact countL_eq_zero this.symm
    obtain ⟨h', e, hI'⟩ := hS.next_nil s h tss hI hf
    exact ⟨[], h', e, [], hI', by simp [visits_nil]⟩

end

/-- The visits of `map(f)` when `i` visits have been made. -/
def MapR (R : σ → Heap α → List (β × Size) → Prop) (f : Nat → β → γ) (s : σ × Nat) (h : Heap α) (ys : List (γ × Size)) : Prop :=
  ∃ xs, R s.1 h xs ∧ ys = xs.mapIdx (fun j v => (f (s.2 + j) v.1, v.2))

/-- `map` on a breadth-first iterator. -/
theorem SrcOK.map {nxt : σ → M α (Option (β × Size) × σ)} {R : σ → Heap α → List (β × Size) → Prop} (hR : SrcOK nxt R) (f : Nat → β → γ) :
    SrcOK (mapNext f nxt) (MapR R f) := by
  refine ⟨framed_mapNext hR.framed, ?_, ?_⟩
  · rintro ⟨s, i⟩ h y ys ⟨xs, hx, e⟩
    cases xs with
    | nil => simp at e
    | cons x xs =>
      rw [List.mapIdx_cons, List.cons.injEq] at e
      obtain ⟨rfl, rfl⟩ := e
      obtain ⟨s', h', e, hR'⟩ := hR.cons _ _ _ _ hx
      refine ⟨(s', i + 1), h', by simp [mapNext, e], xs, hR', ?_⟩
      congr 1
      funext j v
      simp only [Prod.mk.injEq, and_true]
      congr 1
      omega
  · rintro ⟨s, i⟩ h ⟨xs, hx, e⟩
    have : xs = [] := by simpa using e.symm
    subst this
    obtain ⟨s', h', e, hR'⟩ := hR.nil _ _ hx
    exact ⟨(s', i), h', by simp [mapNext, e], [], hR', rfl⟩

theorem SrcFull.map {nxt : σ → M α (Option (β × Size) × σ)} {drp : σ → M α Unit} {R : σ → Heap α → List (β × Size) → Prop}
    {E : Heap α → Prop} (hR : SrcFull nxt drp R E) (f : Nat → β → γ) :
    SrcFull (mapNext f nxt) (fun s => drp s.1) (MapR R f) E := by
  refine ⟨hR.ok.map f, ?_, ?_, fun s => hR.dframed _, ?_⟩
  · rintro s h ys ⟨xs, hx, -⟩; exact hR.st _ _ _ hx
  · rintro s h ys n ⟨xs, hx, e⟩; exact ⟨xs, hR.bump _ _ _ _ hx, e⟩
  · rintro s h ⟨xs, hx, e⟩
    have : xs = [] := by simpa using e.symm
    subst this
    exact hR.fin _ _ hx

end Trees
