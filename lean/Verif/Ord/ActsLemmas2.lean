import Verif.Ord.ActsLemmas
/-! Rounds of whole operations and histories (helper lemmas). -/
namespace MI.Ord
open MI

variable {K : Type} {lt : K → K → Bool} {u : Bool} {hd : Id} {xs : List Id} {n : Nat}

/-- What rebalancing may cost on average. -/
def Act.pay : Act K → Nat
  | .insert _ _ _ => 5
  | .erase _ => 7
  | .replace _ _ => 12
  | .modify _ _ => 12

/-- The outcome of an operation. -/
def ActOk (lt : K → K → Bool) (u : Bool) (hd : Id) (xs : List Id) (P : Nat) (a : Act K) (o : Option (Idx K × Rounds)) : Prop :=
  ∃ s' r xs' P', o = some (s', r) ∧ RepP s'.h hd xs' P' ∧ OrderedBy lt u s'.key xs' ∧ s'.count = xs'.length ∧ a.Effect u xs xs' ∧
    r.fix + P' ≤ P + a.pay ∧ r.walk ≤ (match a with
      | .erase _ => 4 * lg xs.length
      | _ => 16 * lg xs.length) ∧ r.fix ≤ 4 * lg xs.length + 3

theorem upd_idem (f : Id → K) (x : Id) (k : K) : upd (upd f x k) x k = upd f x k := by
  funext y; unfold upd; split <;> rfl

theorem insert_ok (sw : StrictWeak lt) {s : Idx K} {P : Nat} {x : Id} {k : K} {hint : Option Id} (hr : RepP s.h hd xs P)
    (ho : OrderedBy lt u s.key xs) (hc : s.count = xs.length) (hn : xs.length + 4 ≤ n) (hl : (Act.insert x k hint).Legal hd xs) :
    ActOk lt u hd xs P (.insert x k hint) (act lt u n hd s (.insert x k hint)) := by
  obtain ⟨hx0, hx, hh⟩ := hl
  have ho' : OrderedBy lt u (upd s.key x k) xs := ho.congr (fun z hz => upd_other _ _ (fun e => hx (by rw [← e]; simp [hz])))
  obtain ⟨p, w, e, hw, q⟩ := pointS_spec sw (k := k) hr.rep ho' (n := n) (by omega) hh
  simp only [act]
  rw [e]
  rcases q with ⟨side, pos, a, b, rfl, rfl, hp, hf⟩ | ⟨q, rfl, -⟩
  · obtain ⟨h', f, P', e1, r1, c1, c2⟩ := linkP_at hr hp hx hx0 (N := n) (by omega)
    have ho2 := ho'.insert (x := x) (fun hm => hx (List.mem_cons_of_mem _ hm)) hf
    rw [upd_idem] at ho2
    simp only [e1]
    refine ⟨_, _, _, P', rfl, r1, ho2, by simp [hc]; omega, Or.inl List.perm_middle, c1, ?_, ?_⟩
    · simp only; omega
    · simp only [lg] at *; omega
  · refine ⟨_, _, _, P, rfl, hr, ho, hc, Or.inr ⟨?_, rfl⟩, by simp [Act.pay], ?_, by simp⟩
    · cases u with
      | true => rfl
      | false =>
        exfalso
        have e' := congrArg (Option.map (·.1)) e
        rw [pointS_fst] at e'
        cases hint with
        | none =>
          obtain ⟨_, _, _, _, q', -⟩ := linkPointN_spec sw hr.rep (ho'.sorted sw) (n := n) (by omega) k
          have : linkPointN (upd s.key x k) lt n s.h hd k = some (.reject q) := e'
          rw [q'] at this; cases this
        | some q0 =>
          obtain ⟨b, a, rfl, rfl⟩ := split_hint (hh q0 rfl)
          obtain ⟨_, _, _, _, q', -⟩ := hintedPointN_spec sw hr.rep (ho'.sorted sw) (n := n) (by omega) k
          have : hintedPointN (upd s.key x k) lt n s.h hd k (hdOr hd a) = some (.reject q) := e'
          rw [q'] at this; cases this
    · simp only; omega

theorem erase_append {x : Id} {a b : List Id} (hx : x ∉ a) : (a ++ x :: b).erase x = a ++ b := by
  rw [List.erase_append_right _ hx]; simp

theorem holds_mem {h : Heap} {x : Id} (hr : Rep h hd xs) (hx : x ∈ xs) : ∃ a b, xs = a ++ x :: b ∧ x ∉ a ++ b ∧ x ≠ 0 ∧ x ≠ hd := by
  obtain ⟨a, b, rfl⟩ := List.append_of_mem hx
  have hnd := rep_nodup hr
  have hnz := rep_nz hr
  refine ⟨a, b, rfl, ?_, ?_, ?_⟩
  · have := (List.nodup_cons.1 hnd).2
    intro hm
    have h1 := List.nodup_middle.1 this
    exact (List.nodup_cons.1 h1).1 hm
  · rintro rfl; exact hnz (by simp)
  · rintro rfl
    exact (List.nodup_cons.1 hnd).1 (by simp)

theorem erase_ok {s : Idx K} {P : Nat} {x : Id} (hr : RepP s.h hd xs P) (ho : OrderedBy lt u s.key xs) (hc : s.count = xs.length) (hn : xs.length + 4 ≤ n) (hx : x ∈ xs) :
    ActOk lt u hd xs P (.erase x) (act lt u n hd s (.erase x)) := by
  obtain ⟨a, b, rfl, hm, hx0, hxh⟩ := holds_mem hr.rep hx
  obtain ⟨w, e1, hw⟩ := incrementS_le hr.rep (N := n) (by omega)
  obtain ⟨h', w', f, P', e2, r, c1, c2, c3, -⟩ := extractP_at hr (N := n) (by omega)
  simp only [act]
  rw [e1]
  simp only [e2]
  refine ⟨_, _, a ++ b, P', rfl, r, ho.sub ((List.sublist_cons_self x b).append_left a), by simp [hc], ?_, ?_, ?_, ?_⟩
  · exact (erase_append (fun h => hm (by simp [h]))).symm
  · simp only [Rounds.add, Act.pay]; omega
  · simp only [Rounds.add, lg] at *; omega
  · simp only [Rounds.add, lg] at *; omega

/-- The second part of `replace` and `modify`. -/
theorem relink_ok (sw : StrictWeak lt) {key : Id → K} {h : Heap} {x : Id} {k : K} {r : Rounds} {P c : Nat} {a b : List Id}
    {otherwise : Rounds → Option (Idx K × Rounds)} (hr : RepP h hd (a ++ b) P) (ho : OrderedBy lt u key (a ++ b)) (hn : (a ++ b).length + 4 ≤ n)
    (hx : x ∉ hd :: (a ++ b)) (hx0 : x ≠ 0) (hk : upd key x k = key) :
    (∃ s' w f xs' P', relink lt u n hd key h c x k r otherwise = some (s', r.add ⟨w, f⟩) ∧ RepP s'.h hd xs' P' ∧ OrderedBy lt u s'.key xs' ∧
      xs'.Perm (a ++ x :: b) ∧ s'.count = c ∧ f + P' ≤ P + 5 ∧ w ≤ 6 * lg (a ++ b).length ∧ f ≤ 2 * lg (a ++ b).length + 1) ∨
    (∃ w, relink lt u n hd key h c x k r otherwise = otherwise (r.add ⟨w, 0⟩) ∧ w ≤ 6 * lg (a ++ b).length ∧ u = true) := by
  obtain ⟨p, w, e, hw, q⟩ := pointS_spec sw (k := k) (hint := none) hr.rep ho (n := n) (by omega) (by simp)
  unfold relink
  rw [e]
  rcases q with ⟨side, pos, a', b', rfl, e1, hp, hf⟩ | ⟨q, rfl, -⟩
  · left
    rw [e1] at hr ho hx hn hw ⊢
    obtain ⟨h', f, P', e2, r2, c1, c2⟩ := linkP_at hr hp hx hx0 (N := n) (by omega)
    have ho2 := ho.insert (x := x) (fun hm => hx (List.mem_cons_of_mem _ hm)) hf
    rw [hk] at ho2
    simp only [e2]
    refine ⟨_, w, f, _, P', rfl, r2, ho2, ?_, rfl, c1, hw, c2⟩
    refine List.perm_middle.trans (List.Perm.trans ?_ List.perm_middle.symm)
    rw [e1]
  · right
    refine ⟨w, rfl, hw, ?_⟩
    cases u with
    | true => rfl
    | false =>
      exfalso
      have e' := congrArg (Option.map (·.1)) e
      rw [pointS_fst] at e'
      obtain ⟨_, _, _, _, q', -⟩ := linkPointN_spec sw hr.rep (ho.sorted sw) (n := n) (by omega) k
      have : linkPointN key lt n h hd k = some (.reject q) := e'
      rw [q'] at this; cases this

theorem lg_le {a b : List Id} {x : Id} : lg (a ++ b).length ≤ lg (a ++ x :: b).length := lg_mono (by simp)

theorem replace_ok (sw : StrictWeak lt) {s : Idx K} {P : Nat} {x : Id} {k : K} (hr : RepP s.h hd xs P) (ho : OrderedBy lt u s.key xs) (hc : s.count = xs.length)
    (hn : xs.length + 4 ≤ n) (hx : x ∈ xs) : ActOk lt u hd xs P (.replace x k) (act lt u n hd s (.replace x k)) := by
  obtain ⟨a, b, rfl, hm, hx0, hxh⟩ := holds_mem hr.rep hx
  have hab : (a ++ b).Sublist (a ++ x :: b) := (List.sublist_cons_self x b).append_left a
  have hL := lg_le (a := a) (b := b) (x := x)
  have ho' : OrderedBy lt u (upd s.key x k) (a ++ b) := (ho.sub hab).congr (fun z hz => upd_other _ _ (fun e => hm (e ▸ hz)))
  obtain ⟨i, w, e1, hw, hi⟩ := inPlaceS_spec sw (k := k) hr.rep ho' (n := n) (by omega)
  simp only [act]
  rw [e1]
  cases i with
  | true =>
    have := ho'.insert hm (hi.1 rfl)
    rw [upd_idem] at this
    refine ⟨_, _, _, P, rfl, hr, this, hc, List.Perm.refl _, by simp [Act.pay], by simp only; omega, by simp⟩
  | false =>
    obtain ⟨w1, e2, hw1⟩ := incrementS_le hr.rep (N := n) (by omega)
    obtain ⟨h', w2, f2, P2, e3, r3, c1, c2, c3, -⟩ := extractP_at hr (N := n) (by omega)
    simp only [e2, e3]
    have hlen : (a ++ b).length + 4 ≤ n := by simp at hn ⊢; omega
    have hxn : x ∉ hd :: (a ++ b) := by simp only [List.mem_cons, not_or]; exact ⟨hxh, hm⟩
    rcases relink_ok sw (k := k) (r := (⟨w2, f2⟩ : Rounds).add ⟨w + w1, 0⟩)
      (otherwise := fun r => (restoreS n h' x (hdOr hd b) hd).map (fun (h, r') => (⟨s.key, h, s.count⟩, r.add r'))) (c := s.count) r3 ho' hlen hxn hx0 (upd_idem ..) with
      ⟨s', w3, f3, xs', P3, q1, q2, q3, q4, qc, q5, q6, q7⟩ | ⟨w3, q1, q2, -⟩
    · rw [q1]
      refine ⟨_, _, _, P3, rfl, q2, q3, by rw [qc, hc, q4.length_eq], q4, ?_, ?_, ?_⟩
      · simp only [Rounds.add, Act.pay]; omega
      · simp only [Rounds.add, lg] at *; omega
      · simp only [Rounds.add, lg] at *; omega
    · rw [q1]
      obtain ⟨h4, w4, f4, P4, e4, r4, d1, d2, d3⟩ := restoreS_spec r3 hxn hx0 (n := n) (by omega)
      simp only [e4, Option.map_some]
      refine ⟨_, _, _, P4, rfl, r4, ho, hc, List.Perm.refl _, ?_, ?_, ?_⟩
      · simp only [Rounds.add, Act.pay]; omega
      · simp only [Rounds.add, lg] at *; omega
      · simp only [Rounds.add, lg] at *; omega

theorem modify_ok (sw : StrictWeak lt) {s : Idx K} {P : Nat} {x : Id} {k : K} (hr : RepP s.h hd xs P) (ho : OrderedBy lt u s.key xs) (hc : s.count = xs.length)
    (hn : xs.length + 4 ≤ n) (hx : x ∈ xs) : ActOk lt u hd xs P (.modify x k) (act lt u n hd s (.modify x k)) := by
  obtain ⟨a, b, rfl, hm, hx0, hxh⟩ := holds_mem hr.rep hx
  have hab : (a ++ b).Sublist (a ++ x :: b) := (List.sublist_cons_self x b).append_left a
  have hL := lg_le (a := a) (b := b) (x := x)
  have ho' : OrderedBy lt u (upd s.key x k) (a ++ b) := (ho.sub hab).congr (fun z hz => upd_other _ _ (fun e => hm (e ▸ hz)))
  obtain ⟨i, w, e1, hw, hi⟩ := inPlaceS_spec sw (k := k) hr.rep ho' (n := n) (by omega)
  simp only [act]
  rw [e1]
  cases i with
  | true =>
    have := ho'.insert hm (hi.1 rfl)
    rw [upd_idem] at this
    exact ⟨_, _, _, P, rfl, hr, this, hc, Or.inl (List.Perm.refl _), by simp [Act.pay], by simp only; omega, by simp⟩
  | false =>
    obtain ⟨h', w2, f2, P2, e3, r3, c1, c2, c3, -⟩ := extractP_at hr (N := n) (by omega)
    simp only [e3]
    have hlen : (a ++ b).length + 4 ≤ n := by simp at hn ⊢; omega
    have hxn : x ∉ hd :: (a ++ b) := by simp only [List.mem_cons, not_or]; exact ⟨hxh, hm⟩
    have H := relink_ok sw (k := k) (r := (⟨w2, f2⟩ : Rounds).add ⟨w, 0⟩)
      (otherwise := fun r => some (⟨upd s.key x k, h', s.count - 1⟩, r)) (c := s.count) r3 ho' hlen hxn hx0 (upd_idem ..)
    rcases H with ⟨s', w3, f3, xs', P3, q1, q2, q3, q4, qc, q5, q6, q7⟩ | ⟨w3, q1, q2, hu⟩
    · rw [q1]
      refine ⟨_, _, _, P3, rfl, q2, q3, by rw [qc, hc, q4.length_eq], Or.inl q4, ?_, ?_, ?_⟩
      · simp only [Rounds.add, Act.pay]; omega
      · simp only [Rounds.add, lg] at *; omega
      · simp only [Rounds.add, lg] at *; omega
    · rw [q1]
      refine ⟨_, _, _, P2, rfl, r3, ho', by simp [hc], Or.inr ⟨hu, (erase_append (fun h => hm (by simp [h]))).symm⟩, ?_, ?_, ?_⟩
      · simp only [Rounds.add, Act.pay]; omega
      · simp only [Rounds.add, lg] at *; omega
      · simp only [Rounds.add, lg] at *; omega

theorem act_ok (sw : StrictWeak lt) {s : Idx K} {P : Nat} {a : Act K} (hr : RepP s.h hd xs P) (ho : OrderedBy lt u s.key xs) (hc : s.count = xs.length)
    (hn : xs.length + 4 ≤ n) (hl : a.Legal hd xs) : ActOk lt u hd xs P a (act lt u n hd s a) := by
  cases a with
  | insert x k hint => exact insert_ok sw hr ho hc hn hl
  | erase x => exact erase_ok hr ho hc hn hl
  | replace x k => exact replace_ok sw hr ho hc hn hl
  | modify x k => exact modify_ok sw hr ho hc hn hl

theorem effect_length {a : Act K} {xs' : List Id} (h : a.Effect u xs xs') : xs'.length ≤ xs.length + 1 := by
  cases a with
  | insert x k hint =>
    rcases h with h | ⟨_, rfl⟩
    · rw [h.length_eq]; simp
    · omega
  | erase x => rw [show xs' = xs.erase x from h, List.length_erase]; split <;> omega
  | replace x k => rw [List.Perm.length_eq h]; omega
  | modify x k =>
    rcases h with h | ⟨_, rfl⟩
    · rw [h.length_eq]; omega
    · rw [List.length_erase]; split <;> omega

theorem rep_unique {h : Heap} {xs ys : List Id} (a : Rep h hd xs) (b : Rep h hd ys) : xs = ys := by
  obtain ⟨t, R, -, -, rfl⟩ := a
  obtain ⟨t', R', -, -, rfl⟩ := b
  rw [shape_unique R.shape R'.shape]

/-- What rebalancing may cost in a history. -/
def payAll (as : List (Act K)) : Nat := (as.map Act.pay).sum

/-- What was put aside for future erasures. -/
def saved : Nat → Nat
  | 0 => 0
  | m + 1 => saved m + 4 * lg (m + 1)

theorem saved_mono {a b : Nat} (h : a ≤ b) : saved a ≤ saved b := by
  induction b with
  | zero => rw [show a = 0 by omega]; exact Nat.le_refl _
  | succ b ih =>
    by_cases e : a = b + 1
    · rw [e]; exact Nat.le_refl _
    · have := ih (by omega)
      simp only [saved]; omega

theorem lg_succ (m : Nat) : lg (m + 1) ≤ lg m + 1 := by
  unfold lg
  have h1 : m + 1 < 2 ^ (Nat.log2 (m + 1) + 1) := Nat.lt_log2_self
  have h2 : Nat.log2 (m + 1 + 1) < Nat.log2 (m + 1) + 2 := (Nat.log2_lt (by omega)).2 (by rw [Nat.pow_succ]; omega)
  omega

/-- One operation, on account. -/
theorem act_saved {a : Act K} {xs' : List Id} {w : Nat} (hw : w ≤ (match a with
      | .erase _ => 4 * lg xs.length
      | _ => 16 * lg xs.length)) (hl : a.Legal hd xs) (ef : a.Effect u xs xs') : w + saved xs'.length ≤ saved xs.length + 20 * a.signature xs.length := by
  cases a with
  | insert x k hint =>
    have := effect_length ef
    have h1 := saved_mono this
    have h2 := lg_succ xs.length
    simp only [saved] at h1
    simp only [Act.signature, lg] at *; omega
  | erase x =>
    have e : xs'.length = xs.length - 1 := by rw [show xs' = xs.erase x from ef, List.length_erase_of_mem hl]
    have hp : 0 < xs.length := List.length_pos_of_mem hl
    obtain ⟨m, hm⟩ : ∃ m, xs.length = m + 1 := ⟨xs.length - 1, by omega⟩
    rw [e]
    simp only [hm] at hw ⊢
    simp only [saved, Act.signature, Nat.add_sub_cancel] at *; omega
  | replace x k =>
    rw [List.Perm.length_eq ef]
    simp only [Act.signature, lg] at *; omega
  | modify x k =>
    have : xs'.length ≤ xs.length := by
      rcases ef with ef | ⟨_, rfl⟩
      · exact Nat.le_of_eq ef.length_eq
      · rw [List.length_erase]; split <;> omega
    have h1 := saved_mono this
    simp only [Act.signature, lg] at *; omega

theorem signature_pos (a : Act K) (m : Nat) : 1 ≤ a.signature m := by cases a <;> simp [Act.signature]

theorem pay_le (a : Act K) : a.pay ≤ 12 := by cases a <;> simp [Act.pay]

theorem acts_ok (sw : StrictWeak lt) {ok : Idx K → List Id → Act K → Prop} : ∀ (as : List (Act K)) {s : Idx K} {xs : List Id} {P : Nat},
    RepP s.h hd xs P → OrderedBy lt u s.key xs → s.count = xs.length → xs.length + as.length + 4 ≤ n → History lt u hd ok n s as →
    ∃ s' r xs' P', acts lt u n hd s as = some (s', r) ∧ RepP s'.h hd xs' P' ∧ OrderedBy lt u s'.key xs' ∧ s'.count = xs'.length ∧
      r.fix + P' ≤ P + payAll as ∧ r.walk + saved xs'.length ≤ saved xs.length + 20 * signatureOf lt u hd n s as ∧
      as.length ≤ signatureOf lt u hd n s as := by
  intro as
  induction as with
  | nil =>
    intro s xs P hr ho hc _ _
    exact ⟨s, ⟨0, 0⟩, xs, P, rfl, hr, ho, hc, by simp [payAll], by simp [signatureOf], by simp⟩
  | cons a as ih =>
    intro s xs P hr ho hc hn hl
    obtain ⟨⟨ys, ⟨hy, -⟩, hla, -⟩, hl'⟩ := hl
    have := rep_unique hr.rep hy
    subst this
    simp only [List.length_cons] at hn
    obtain ⟨s1, r1, xs1, P1, e1, hr1, ho1, hc1, ef, b1, b2, -⟩ := act_ok sw hr ho hc (n := n) (by omega) hla
    have hlen := effect_length ef
    have hsv := act_saved b2 hla ef
    have hp := signature_pos a s.count
    obtain ⟨s2, r2, xs2, P2, e2, hr2, ho2, hc2, b4, b5, b6⟩ := ih hr1 ho1 hc1 (by omega) (hl' s1 r1 e1)
    refine ⟨s2, r1.add r2, xs2, P2, by simp only [acts, e1, e2, Option.map_some], hr2, ho2, hc2, ?_, ?_, ?_⟩
    · simp only [Rounds.add, payAll, List.map_cons, List.sum_cons] at *; omega
    · simp only [Rounds.add, signatureOf, e1]
      rw [hc] at hp ⊢
      omega
    · simp only [signatureOf, e1, List.length_cons]; omega

theorem payAll_le (as : List (Act K)) : payAll as ≤ 12 * as.length := by
  induction as with
  | nil => simp [payAll]
  | cons a as ih =>
    have := pay_le a
    simp only [payAll, List.map_cons, List.sum_cons, List.length_cons] at *; omega

end MI.Ord
