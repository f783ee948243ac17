import Verif.Model.StackFmt
import Verif.Proof.Format
import Verif.Proof.Stack
/-
The stack that printing needs, whatever the writer does.
-/
namespace Trees
set_option linter.unusedSimpArgs false
set_option linter.unusedVariables false
variable {α σ : Type}
open RTree

theorem andThenW_true {o : Option (σ × Bool)} {f : σ → Option (σ × Bool)} {s' : σ} : andThenW o f = some (s', true) ↔
    ∃ s1, o = some (s1, true) ∧ f s1 = some (s', true) := by
  rcases o with _ | ⟨s, _ | _⟩ <;> simp [andThenW]

theorem tryW_go {h : Heap α} {c : M α (σ × Bool)} {f : σ → M α (σ × Bool)} {s : σ} (hc : c h = .ok (s, true) h) : tryW c f h = f s h := by
  simp only [tryW, M.bind_apply, hc]; rfl

theorem tryW_err {h : Heap α} {c : M α (σ × Bool)} {f : σ → M α (σ × Bool)} {e : Err} (hc : c h = .err e h) : tryW c f h = .err e h := by
  simp only [tryW, M.bind_apply, hc]; rfl

/-- What a recursive function does with a limit of `L`. -/
def FmtWithin (P : Writer α σ) (h : Heap α) (L : Nat) (f : σ → M α (σ × Bool)) (ps : List (Piece α)) (n : Nat) : Prop :=
  (n ≤ L → ∀ s, f s h = ofOpt (emit P ps s) h) ∧ (L < n → ∀ s s', emit P ps s = some (s', true) → f s h = .err .fuel h)

theorem FmtWithin.then_put {P : Writer α σ} {h : Heap α} {L : Nat} {f : σ → M α (σ × Bool)} {ps : List (Piece α)} {n : Nat} (H : FmtWithin P h L f ps n)
    (p : Piece α) : FmtWithin P h L (fun s => tryW (f s) fun s => putW P p s) (ps ++ [p]) n := by
  refine ⟨fun hl s => ?_, fun hl s s' he => ?_⟩
  · rw [emit_append]
    exact tryW_ok (H.1 hl s) fun s => putW_ok P _ s
  · rw [emit_append, andThenW_true] at he
    obtain ⟨s1, e1, e2⟩ := he
    exact tryW_err (H.2 hl s s1 e1)

section
variable {h : Heap α} {K : Addr → List Addr} {v : Addr → Option (Addr × α)}

theorem forIterW_over {P : Writer α σ} {L : Nat} {f : Addr → σ → M α (σ × Bool)} {g : RTree (Addr × α) → List (Piece α)} :
    ∀ {cs : List Addr} {ts : List (RTree (Addr × α))} {i : RawIter} {k : Nat} {s s' : σ}, i.At h cs → DenL v K cs ts →
    (∀ c t, c ∈ cs → Den v K c t → FmtWithin P h L (f c) (g t) t.height) → cs.length < k → L < heightL ts →
    emit P (ts.flatMap g) s = some (s', true) → forIterW f k i s h = .err .fuel h := by
  intro cs
  induction cs with
  | nil =>
    intro ts i k s s' hi ht hf hk hl he
    simp at ht; subst ht
    exact absurd hl (by simp [heightL])
  | cons c cs ih =>
    intro ts i k s s' hi ht hf hk hl he
    obtain ⟨k, rfl⟩ : ∃ n, k = n + 1 := ⟨k - 1, by simp at hk; omega⟩
    obtain ⟨t, ts', rfl, ht1, ht2⟩ := DenL_cons_left.mp ht
    obtain ⟨i', ei, hi'⟩ := hi.next_cons
    simp only [List.flatMap_cons, emit_append, andThenW_true] at he
    obtain ⟨s1, e1, e2⟩ := he
    obtain ⟨f1, f2⟩ := hf c t (by simp) ht1
    simp only [forIterW, M.bind_apply, ei, Res.bind_ok]
    by_cases hL : t.height ≤ L
    · rw [tryW_go (s := s1) (by rw [f1 hL, e1]; rfl)]
      exact ih hi' ht2 (fun c t hc h1 => hf c t (by simp [hc]) h1) (by simp at hk; omega) (by simp only [heightL] at hl; omega) e2
    · exact tryW_err (f2 (by omega) s s1 e1)

variable (hI : Inv h K)
include hI

theorem forIterW_within {P : Writer α σ} {L : Nat} {f : Addr → σ → M α (σ × Bool)} {g : RTree (Addr × α) → List (Piece α)} {cs : List Addr}
    {ts : List (RTree (Addr × α))} {i : RawIter} {k : Nat} (hi : i.At h cs) (ht : DenL v K cs ts)
    (hf : ∀ c t, c ∈ cs → Den v K c t → FmtWithin P h L (f c) (g t) t.height) (hk : cs.length < k) :
    FmtWithin P h L (forIterW f k i) (ts.flatMap g) (heightL ts) := by
  refine ⟨fun hl s => ?_, fun hl s s' he => forIterW_over hi ht hf hk hl he⟩
  have hle : ∀ {cs : List Addr} {ts : List (RTree (Addr × α))} {i : RawIter} {k : Nat} {s : σ}, i.At h cs → DenL v K cs ts →
      (∀ c t, c ∈ cs → Den v K c t → FmtWithin P h L (f c) (g t) t.height) → cs.length < k → heightL ts ≤ L →
      forIterW f k i s h = ofOpt (emit P (ts.flatMap g) s) h := by
    intro cs
    induction cs with
    | nil =>
      intro ts i k s hi ht hf hk hl
      exact forIterW_ok hi ht (fun c _ _ hc => by cases hc) hk
    | cons c cs ih =>
      intro ts i k s hi ht hf hk hl
      obtain ⟨k, rfl⟩ : ∃ n, k = n + 1 := ⟨k - 1, by simp at hk; omega⟩
      obtain ⟨t, ts', rfl, ht1, ht2⟩ := DenL_cons_left.mp ht
      obtain ⟨i', ei, hi'⟩ := hi.next_cons
      simp only [heightL] at hl
      simp only [forIterW, M.bind_apply, ei, Res.bind_ok, List.flatMap_cons, emit_append]
      exact tryW_ok ((hf c t (by simp) ht1).1 (by omega) s) fun s => ih hi' ht2 (fun c t hc h1 => hf c t (by simp [hc]) h1) (by simp at hk; omega) (by omega)
  exact hle hi ht hf hk hl

theorem nodeFmtW_within (P : Writer α σ) : ∀ (L : Nat) {a : Addr} {t : RTree (Addr × α)}, h.Used a → Den h.lab K a t →
    FmtWithin P h L (nodeFmtW P L a) (displayP (fun _ => []) t) t.height := by
  intro L
  induction L with
  | zero => intro a t _ _; exact ⟨fun hh => absurd (height_pos t) (by omega), fun _ _ _ _ => rfl⟩
  | succ L ih =>
    intro a t ha ht
    obtain ⟨x, ts⟩ := t
    simp only [Den_node] at ht
    obtain ⟨x1, x2⟩ := Heap.lab_some.mp ht.1
    have a1 := dataRef_ok ha.1 x2
    obtain ⟨i, a2, a3⟩ := iter_at hI ha
    have hh := hI.l.head a ha
    cases hK : K a with
    | nil =>
      rw [hK] at hh ht
      have := ht.2
      simp at this; subst this
      have : hasNoChild a h = .ok true h := by simp [hasNoChild, getHead, ha.1, hh]
      refine ⟨fun _ s => ?_, fun hl => absurd hl (by simp [height, heightL])⟩
      simp only [nodeFmtW, M.bind_apply, this, Res.bind_ok, if_true, a1, displayP, List.nil_append]
      exact putW_ok P _ s
    | cons c cs =>
      rw [hK] at hh
      have ht2 := ht.2
      rw [hK] at ht2
      obtain ⟨t, ts, rfl, _, _⟩ := DenL_cons_left.mp ht2
      have : hasNoChild a h = .ok false h := by simp [hasNoChild, getHead, ha.1, hh]
      have hloop := forIterW_within hI (P := P) (L := L) (f := fun c s => tryW (nodeFmtW P L c s) fun s => putW P (.text [' ']) s)
        (g := fun t => displayP (fun _ => []) t ++ [.text [' ']]) (k := i.len + 1) a3 ht.2
        (fun c t hc h1 => (ih (hI.used_of_mem hc) h1).then_put _) (by rw [a3.1]; omega)
      have e : displayP (fun _ => []) (node x (t :: ts)) = [.item x.2] ++ ([.text ['(', ' ']] ++ ((t :: ts).flatMap (fun t => displayP (fun _ => []) t ++ [.text [' ']]) ++ [.text [')']])) := by
        rw [← displayPL_eq]; simp [displayP]
      refine ⟨fun hl s => ?_, fun hl s s' he => ?_⟩
      · simp only [nodeFmtW, M.bind_apply, this, Res.bind_ok, a1, Bool.false_eq_true, if_false]
        rw [e, emit_append]
        refine tryW_ok (putW_ok P _ s) fun s => ?_
        rw [emit_append]
        refine tryW_ok (putW_ok P _ s) fun s => ?_
        simp only [M.bind_apply, a2, Res.bind_ok]
        rw [emit_append]
        exact tryW_ok (hloop.1 (by simp only [height] at hl; omega) s) fun s => putW_ok P _ s
      · simp only [nodeFmtW, M.bind_apply, this, Res.bind_ok, a1, Bool.false_eq_true, if_false]
        simp only [e, emit_append, andThenW_true] at he
        obtain ⟨s1, e1, s2, e2, s3, e3, -⟩ := he
        rw [tryW_go (s := s1) (by rw [putW_ok, e1]; rfl), tryW_go (s := s2) (by rw [putW_ok, e2]; rfl)]
        simp only [M.bind_apply, a2, Res.bind_ok]
        exact tryW_err (hloop.2 (by simp only [height] at hl; omega) s2 s3 e3)

theorem nodeDebugW_within (P : Writer α σ) : ∀ (L : Nat) {a : Addr} {t : RTree (Addr × α)}, h.Used a → Den h.lab K a t →
    FmtWithin P h L (nodeDebugW P L a) (debugP (fun _ => []) id t) t.height := by
  intro L
  induction L with
  | zero => intro a t _ _; exact ⟨fun hh => absurd (height_pos t) (by omega), fun _ _ _ _ => rfl⟩
  | succ L ih =>
    intro a t ha ht
    obtain ⟨x, ts⟩ := t
    simp only [Den_node] at ht
    obtain ⟨x1, x2⟩ := Heap.lab_some.mp ht.1
    have a1 := dataRef_ok ha.1 x2
    obtain ⟨i, a2, a3⟩ := iter_at hI ha
    have hh := hI.l.head a ha
    cases hK : K a with
    | nil =>
      rw [hK] at hh ht
      have := ht.2
      simp at this; subst this
      have : hasNoChild a h = .ok true h := by simp [hasNoChild, getHead, ha.1, hh]
      refine ⟨fun _ s => ?_, fun hl => absurd hl (by simp [height, heightL])⟩
      simp only [nodeDebugW, M.bind_apply, this, Res.bind_ok, if_true, a1]
      rw [show debugP (fun _ => []) id (node x []) = [.item x.2] ++ [.text ['@'], .addr a, .text [' ']] by simp [debugP, x1], emit_append]
      exact tryW_ok (putW_ok P _ s) fun s => putAddrW_ok P a s
    | cons c cs =>
      rw [hK] at hh
      have ht2 := ht.2
      rw [hK] at ht2
      obtain ⟨t, ts, rfl, _, _⟩ := DenL_cons_left.mp ht2
      have : hasNoChild a h = .ok false h := by simp [hasNoChild, getHead, ha.1, hh]
      have hloop := forIterW_within hI (P := P) (L := L) (f := nodeDebugW P L) (g := debugP (fun _ => []) id) (k := i.len + 1) a3 ht.2
        (fun c t hc h1 => ih (hI.used_of_mem hc) h1) (by rw [a3.1]; omega)
      have e : debugP (fun _ => []) id (node x (t :: ts)) = [.item x.2] ++ ([.text ['@'], .addr a, .text [' ']] ++ ([.text ['(', ' ']] ++
          ((t :: ts).flatMap (debugP (fun _ => []) id) ++ [.text [')']]))) := by
        rw [← debugPL_eq]; simp [debugP, x1]
      refine ⟨fun hl s => ?_, fun hl s s' he => ?_⟩
      · simp only [nodeDebugW, M.bind_apply, this, Res.bind_ok, a1, Bool.false_eq_true, if_false]
        rw [e, emit_append]
        refine tryW_ok (putW_ok P _ s) fun s => ?_
        rw [emit_append]
        refine tryW_ok (putAddrW_ok P a s) fun s => ?_
        rw [emit_append]
        refine tryW_ok (putW_ok P _ s) fun s => ?_
        simp only [M.bind_apply, a2, Res.bind_ok]
        rw [emit_append]
        exact tryW_ok (hloop.1 (by simp only [height] at hl; omega) s) fun s => putW_ok P _ s
      · simp only [nodeDebugW, M.bind_apply, this, Res.bind_ok, a1, Bool.false_eq_true, if_false]
        simp only [e, emit_append, andThenW_true] at he
        obtain ⟨s1, e1, s2, e2, s3, e3, s4, e4, -⟩ := he
        rw [tryW_go (s := s1) (by rw [putW_ok, e1]; rfl), tryW_go (s := s2) (by rw [putAddrW_ok, e2]; rfl), tryW_go (s := s3) (by rw [putW_ok, e3]; rfl)]
        simp only [M.bind_apply, a2, Res.bind_ok]
        exact tryW_err (hloop.2 (by simp only [height] at hl; omega) s3 s4 e4)

theorem displayForestWithin_iff (P : Writer α σ) (L : Nat) {a : Addr} {ts : List (RTree (Addr × α))} (ha : h.Used a) (ht : DenL h.lab K (K a) ts) :
    FmtWithin P h L (displayForestWithin P L a) (displayForestP ts) (heightL ts) := by
  obtain ⟨i, a2, a3⟩ := iter_at hI ha
  have hh := hI.l.head a ha
  cases hK : K a with
  | nil =>
    rw [hK] at hh ht
    simp at ht; subst ht
    have : hasNoChild a h = .ok true h := by simp [hasNoChild, getHead, ha.1, hh]
    refine ⟨fun _ s => ?_, fun hl => absurd hl (by simp [heightL])⟩
    simp only [displayForestWithin, M.bind_apply, this, Res.bind_ok, if_true, displayForestP]
    exact putW_ok P _ s
  | cons c cs =>
    rw [hK] at hh
    have ht2 := ht
    rw [hK] at ht2
    obtain ⟨t, ts, rfl, _, _⟩ := DenL_cons_left.mp ht2
    have : hasNoChild a h = .ok false h := by simp [hasNoChild, getHead, ha.1, hh]
    have hloop := forIterW_within hI (P := P) (L := L) (f := fun c s => tryW (nodeFmtW P L c s) fun s => putW P (.text [' ']) s)
      (g := fun t => displayP (fun _ => []) t ++ [.text [' ']]) (k := i.len + 1) a3 ht
      (fun c t hc h1 => (nodeFmtW_within hI P L (hI.used_of_mem hc) h1).then_put _) (by rw [a3.1]; omega)
    have e : displayForestP (t :: ts) = [.text ['(', ' ']] ++ ((t :: ts).flatMap (fun t => displayP (fun _ => []) t ++ [.text [' ']]) ++ [.text [')']]) := by
      rw [← displayPL_eq]; simp [displayForestP]
    refine ⟨fun hl s => ?_, fun hl s s' he => ?_⟩
    · simp only [displayForestWithin, M.bind_apply, this, Res.bind_ok, Bool.false_eq_true, if_false]
      rw [e, emit_append]
      refine tryW_ok (putW_ok P _ s) fun s => ?_
      simp only [M.bind_apply, a2, Res.bind_ok]
      rw [emit_append]
      exact tryW_ok (hloop.1 hl s) fun s => putW_ok P _ s
    · simp only [displayForestWithin, M.bind_apply, this, Res.bind_ok, Bool.false_eq_true, if_false]
      simp only [e, emit_append, andThenW_true] at he
      obtain ⟨s1, e1, s2, e2, -⟩ := he
      rw [tryW_go (s := s1) (by rw [putW_ok, e1]; rfl)]
      simp only [M.bind_apply, a2, Res.bind_ok]
      exact tryW_err (hloop.2 hl s1 s2 e2)

theorem debugForestWithin_iff (P : Writer α σ) (L : Nat) {a : Addr} {ts : List (RTree (Addr × α))} (ha : h.Used a) (ht : DenL h.lab K (K a) ts) :
    FmtWithin P h L (debugForestWithin P L a) (debugForestP ts) (heightL ts) := by
  obtain ⟨i, a2, a3⟩ := iter_at hI ha
  have hh := hI.l.head a ha
  cases hK : K a with
  | nil =>
    rw [hK] at hh ht
    simp at ht; subst ht
    have : hasNoChild a h = .ok true h := by simp [hasNoChild, getHead, ha.1, hh]
    refine ⟨fun _ s => ?_, fun hl => absurd hl (by simp [heightL])⟩
    simp only [debugForestWithin, M.bind_apply, this, Res.bind_ok, if_true, debugForestP]
    exact putW_ok P _ s
  | cons c cs =>
    rw [hK] at hh
    have ht2 := ht
    rw [hK] at ht2
    obtain ⟨t, ts, rfl, _, _⟩ := DenL_cons_left.mp ht2
    have : hasNoChild a h = .ok false h := by simp [hasNoChild, getHead, ha.1, hh]
    have hloop := forIterW_within hI (P := P) (L := L) (f := fun c s => tryW (nodeDebugW P L c s) fun s => putW P (.text [' ']) s)
      (g := fun t => debugP (fun _ => []) id t ++ [.text [' ']]) (k := i.len + 1) a3 ht
      (fun c t hc h1 => (nodeDebugW_within hI P L (hI.used_of_mem hc) h1).then_put _) (by rw [a3.1]; omega)
    have e : debugForestP (t :: ts) = [.text ['(', ' ']] ++ ((t :: ts).flatMap (fun t => debugP (fun _ => []) id t ++ [.text [' ']]) ++ [.text [')']]) := rfl
    refine ⟨fun hl s => ?_, fun hl s s' he => ?_⟩
    · simp only [debugForestWithin, M.bind_apply, this, Res.bind_ok, Bool.false_eq_true, if_false]
      rw [e, emit_append]
      refine tryW_ok (putW_ok P _ s) fun s => ?_
      simp only [M.bind_apply, a2, Res.bind_ok]
      rw [emit_append]
      exact tryW_ok (hloop.1 hl s) fun s => putW_ok P _ s
    · simp only [debugForestWithin, M.bind_apply, this, Res.bind_ok, Bool.false_eq_true, if_false]
      simp only [e, emit_append, andThenW_true] at he
      obtain ⟨s1, e1, s2, e2, -⟩ := he
      rw [tryW_go (s := s1) (by rw [putW_ok, e1]; rfl)]
      simp only [M.bind_apply, a2, Res.bind_ok]
      exact tryW_err (hloop.2 hl s1 s2 e2)

end

end Trees
