import Verif.Ord.ActsLemmas2
/-! Rounds of operations at the ends, of traversals, and histories that are expensive (helper lemmas). -/
namespace MI.Ord
open MI

variable {K : Type} {lt : K → K → Bool} {u : Bool} {hd : Id} {xs : List Id} {n : Nat}

/-! ## Traversal -/

theorem advanceS_succ {h : Heap} : ∀ (m : Nat) {x y : Id} {w : Nat}, advanceS h n m x = some (y, w) →
    advanceS h n (m + 1) x = (incrementS h n y).map (fun o => (o.1, w + o.2)) := by
  intro m
  induction m with
  | zero =>
    intro x y w e
    cases e
    simp only [advanceS]
    rcases incrementS h n x with _ | ⟨a, b⟩
    · rfl
    · simp
  | succ m ih =>
    intro x y w e
    rw [advanceS] at e ⊢
    rcases c : incrementS h n x with _ | ⟨a, b⟩
    · rw [c] at e; cases e
    · rw [c] at e
      simp only at e ⊢
      rcases c' : advanceS h n m a with _ | ⟨a', b'⟩
      · rw [c'] at e; cases e
      · rw [c'] at e; cases e
        rw [ih c']
        rcases incrementS h n a' with _ | ⟨a2, b2⟩
        · rfl
        · simp [Nat.add_assoc]

theorem advance_le {h : Heap} {x : Id} {u v : List Id} {m : Nat} (hr : Rep h hd (u ++ x :: v)) (hn : (u ++ x :: v).length + 3 ≤ n) (hm : m ≤ v.length) :
    ∃ y w, advanceS h n m x = some (y, w) ∧ (u ++ x :: v)[u.length + m]? = some y ∧ w ≤ m + 4 * lg (u ++ x :: v).length := by
  obtain ⟨k, c, s, l, r, R, hb, hi, rfl, rfl⟩ := zip_at hr
  have h1 := zip_height hb rfl
  rw [← hi] at hn
  obtain ⟨k', c', s', l', y, r', w, e, ep, hl, hw⟩ := advance_zip m R hn hm
  rw [ep] at hb h1
  have h2 := zip_height hb rfl
  refine ⟨y, w, e, ?_, ?_⟩
  · rw [← hi, ep, ← hl, ids_plug]
    simp only [T.ids, List.append_assoc, List.cons_append]
    rw [← List.append_assoc, List.getElem?_append_right (Nat.le_refl _)]
    simp
  · rw [← hi, ep]; unfold lg; omega

theorem traverse_le {h : Heap} (hr : Rep h hd xs) (hn : xs.length + 3 ≤ n) :
    ∃ w, advanceS h n xs.length (hdOr hd xs) = some (hd, w) ∧ w ≤ xs.length := by
  cases xs with
  | nil => exact ⟨0, rfl, by simp⟩
  | cons x v =>
    obtain ⟨k, c, s, l, r, R, hb, hi, hu, rfl⟩ := zip_at (u := []) hr
    obtain ⟨k0, l0⟩ := List.append_eq_nil_iff.1 hu.symm
    have hk := rights_zero.2 k0
    have hn' := hn
    rw [show x :: (r.ids ++ ctxR k) = [] ++ x :: (r.ids ++ ctxR k) from rfl, ← hi] at hn'
    obtain ⟨k', c', s', l', y, r', w, e, ep, hl, hw⟩ := advance_zip _ R hn' (Nat.le_refl _)
    have hlen : (r'.ids ++ ctxR k').length = 0 := by
      have h1 : (plug k' (.node c' s' l' y r')).ids.length = ([] ++ x :: (r.ids ++ ctxR k)).length := by rw [← ep, hi]
      rw [ids_plug] at h1
      simp only [T.ids, k0, l0, List.length_append, List.length_cons, List.length_nil] at h1 hl ⊢
      omega
    have hnil := List.append_eq_nil_iff.1 (List.length_eq_zero_iff.1 hlen)
    have hk' := lefts_zero.2 hnil.2
    rw [ep] at R hn'
    have step : ∃ w', incrementS h n y = some (hd, w') ∧ w' ≤ rights k' + 1 := by
      have hr' : Rep h hd ((ctxL k' ++ l'.ids) ++ y :: []) := by
        have e' : (plug k' (.node c' s' l' y r')).ids = (ctxL k' ++ l'.ids) ++ y :: [] := by
          rw [ids_plug]; simp [T.ids, hnil.1, hnil.2]
        rw [← e', ← ep, hi]; exact hr
      have hin := increment_spec hr' (N := n) (by
        have := congrArg List.length hi
        have h2 := congrArg (fun t => t.ids.length) ep
        simp only [ids_plug, T.ids] at h2 hn'
        simp [hnil.1, hnil.2] at h2 hn' ⊢
        omega)
      rcases inc_zip R hn' with ⟨k2, c2, s2, l2, y2, r2, w2, e2, ep2, hl2, -⟩ | ⟨w2, e2, -, -, -, h3⟩
      · exfalso
        have h1 := congrArg (fun t => t.ids.length) ep2
        simp only [ids_plug, T.ids] at h1
        have h2 := congrArg List.length hl2
        simp [hnil.1, hnil.2] at h1 h2
        omega
      · exact ⟨w2, e2, h3⟩
    obtain ⟨w', e', h'⟩ := step
    refine ⟨w + w', ?_, ?_⟩
    · rw [List.length_cons, show hdOr hd (x :: (r.ids ++ ctxR k)) = x from rfl, advanceS_succ _ e, e']; rfl
    · rw [List.length_cons]; omega

/-! ## At the ends -/

/-- With the right hint at one of the ends no walk is needed. -/
theorem pointS_ends {key : Id → K} {h : Heap} {k : K} {q x : Id} (hr : Rep h hd xs) (hn : xs.length + 3 ≤ n) {c : Nat} (he : q = hdOr hd xs ∨ q = hd)
    (hw : WellHinted lt u hd ⟨key, h, c⟩ xs (.insert x k (some q))) {p : Point} {w : Nat}
    (e : pointS key lt u n h hd k (some q) = some (p, w)) : w = 0 := by
  obtain ⟨a, b, rfl, rfl, ha, hb⟩ := hw
  have hf := rep_first hr
  have hl := rep_last hr
  have hnd := rep_nodup hr
  have hroot := rep_root hr
  obtain ⟨n, rfl⟩ : ∃ m, n = m + 1 := ⟨n - 1, by omega⟩
  by_cases hx : a ++ b = []
  · obtain ⟨rfl, rfl⟩ := List.append_eq_nil_iff.1 hx
    have hp := hroot.2 rfl
    have hf : h.left hd = hd := hf
    cases u with
    | true =>
      simp only [pointS, hintedPointUS, hf, hp, hdOr, linkPointUS, descendS] at e
      simp at e
      exact e.2.symm
    | false =>
      simp only [pointS, hintedPointNS, hf, hp, hdOr, lowerLinkPointS, descendS] at e
      simp at e
      exact e.2.symm
  · have hp : h.parent hd ≠ 0 := fun q => hx (hroot.1 q)
    rcases a with _ | ⟨a0, a⟩
    · rcases b with _ | ⟨b0, b⟩
      · exact absurd rfl hx
      have hf : h.left hd = b0 := hf
      have hb0 := hb b0 (by simp)
      cases u with
      | true =>
        have hb0 : lt k (key b0) = true := hb0
        simp only [pointS, hintedPointUS, hf, hdOr] at e
        simp [hp, hb0] at e
        exact e.2.symm
      | false =>
        have hb0 : lt (key b0) k = false := hb0
        simp only [pointS, hintedPointNS, hf, hdOr] at e
        simp [hp, hb0] at e
        exact e.2.symm
    · have hb' : b = [] := by
        rcases b with _ | ⟨b0, b⟩
        · rfl
        · exfalso
          have h0 : b0 ≠ a0 := by rintro rfl; simp at hnd
          have h1 : b0 ≠ hd := by rintro rfl; simp at hnd
          rcases he with he | he
          · exact h0 he
          · exact h1 he
      subst hb'
      have hf : h.left hd = a0 := by rw [hf]; rfl
      have h0 : hd ≠ a0 := by rintro rfl; simp at hnd
      have hm : h.right hd ∈ a0 :: a := by
        rw [hl]; simp only [List.append_nil, List.getLastD_cons]
        exact List.getLastD_mem_cons
      have hlast := ha _ hm
      cases u with
      | true =>
        have hlast : lt (key (h.right hd)) k = true := hlast
        simp only [pointS, hintedPointUS, hf, hdOr] at e
        simp [hlast, h0] at e
        exact e.2.symm
      | false =>
        have hlast : lt k (key (h.right hd)) = false := hlast
        simp only [pointS, hintedPointNS, hf, hdOr] at e
        simp [hlast, h0] at e
        exact e.2.symm

theorem act_insert_walk {s s' : Idx K} {x : Id} {k : K} {hint : Option Id} {r : Rounds} (e : act lt u n hd s (.insert x k hint) = some (s', r)) :
    ∃ p, pointS (upd s.key x k) lt u n s.h hd k hint = some (p, r.walk) := by
  simp only [act] at e
  rcases c : pointS (upd s.key x k) lt u n s.h hd k hint with _ | ⟨⟨side, pos⟩ | q, w⟩
  · rw [c] at e; cases e
  · rw [c] at e
    simp only at e
    rcases c' : linkS n s.h x side pos hd with _ | ⟨h, f⟩
    · rw [c'] at e; cases e
    · rw [c'] at e; cases e; exact ⟨_, rfl⟩
  · rw [c] at e; cases e; exact ⟨_, rfl⟩

/-- Work at the ends. -/
theorem ends_walk {s s' : Idx K} {a : Act K} {r : Rounds} (hr : Rep s.h hd xs) (hn : xs.length + 4 ≤ n) (hl : a.Legal hd xs) (he : AtEnds lt u hd s xs a)
    (e : act lt u n hd s a = some (s', r)) : r.walk ≤ 1 := by
  cases a with
  | insert x k hint =>
    obtain ⟨h1, h2⟩ := he
    obtain ⟨p, hp⟩ := act_insert_walk e
    obtain ⟨q, rfl⟩ : ∃ q, hint = some q := by rcases h1 with h1 | h1 <;> exact ⟨_, h1⟩
    have h3 : WellHinted lt u hd ⟨upd s.key x k, s.h, s.count⟩ xs (.insert x k (some q)) := by
      obtain ⟨a, b, rfl, e2, ha, hb⟩ := h2
      have hk : ∀ z ∈ a ++ b, upd s.key x k z = s.key z := fun z hz => upd_other _ _ (fun e => hl.2.1 (by rw [← e]; exact List.mem_cons_of_mem _ hz))
      exact ⟨a, b, rfl, e2, fun z hz => by simp only; rw [hk z (by simp [hz])]; exact ha z hz, fun z hz => by simp only; rw [hk z (by simp [hz])]; exact hb z hz⟩
    have := pointS_ends hr (by omega) (by simpa using h1) h3 hp
    omega
  | erase x =>
    obtain ⟨v, rfl⟩ := he
    obtain ⟨w, e1, h1⟩ := incrementS_first hr (N := n) (by omega)
    obtain ⟨P, hP⟩ := hr.pot
    obtain ⟨h', w', f, P', e2, -, -, -, -, h2⟩ := extractP_at (u := []) hP (N := n) (by simp only [List.nil_append]; omega)
    simp only [act, e1, e2] at e
    cases e
    have := h2 (Or.inl rfl)
    simp only [Rounds.add]; omega
  | replace x k => exact he.elim
  | modify x k => exact he.elim

theorem ends_walks (sw : StrictWeak lt) : ∀ (as : List (Act K)) {s s' : Idx K} {xs : List Id} {r : Rounds},
    s.Holds lt u hd xs → xs.length + as.length + 4 ≤ n → History lt u hd (AtEnds lt u hd) n s as →
    acts lt u n hd s as = some (s', r) → r.walk ≤ as.length := by
  intro as
  induction as with
  | nil => intro s s' xs r _ _ _ e; cases e; simp
  | cons a as ih =>
    intro s s' xs r ⟨hr, ho, hc⟩ hn hl e
    obtain ⟨⟨ys, ⟨hy, -⟩, hla, hok⟩, hl'⟩ := hl
    have := rep_unique hr hy
    subst this
    simp only [List.length_cons] at hn
    obtain ⟨P, hP⟩ := hr.pot
    obtain ⟨s1, r1, xs1, P1, e1, hr1, ho1, hc1, ef, -⟩ := act_ok sw hP ho hc (n := n) (by omega) hla
    have hlen := effect_length ef
    have h1 := ends_walk hr (by omega) hla hok e1
    simp only [acts, e1] at e
    rcases c : acts lt u n hd s1 as with _ | ⟨s2, r2⟩
    · rw [c] at e; cases e
    · rw [c] at e; cases e
      have := ih ⟨hr1.rep, ho1, hc1⟩ (by omega) (hl' s1 r1 e1) c
      simp only [Rounds.add, List.length_cons]; omega

end MI.Ord
