import Verif.Hash.Steps
import Verif.Hash.CallsLemmas
set_option linter.unusedSimpArgs false
/-! Rounds of the loops of hashed indices (helper lemmas). -/
namespace MI.Hash
open MI

section
variable {c : Cat} {h : Heap} {a : Arr} {hd : Id} {T : Tab}

theorem findLoopS_le (r : Rep h a hd T) (oc : OfCat c T) (so : ∀ i, ∀ g ∈ T.B i, g.Solid) (p : Id → Bool) {i : Nat} :
    ∀ (R G : List Grp) (n : Nat), T.B i = G ++ R → (findLoopS c p h n ((gnodes R).headD 0)).2 ≤ R.length
  | [], G, n, _ => by cases n <;> simp [findLoopS]
  | g :: R, G, 0, hB => Nat.zero_le _
  | g :: R, G, n + 1, hB => by
    obtain ⟨hg, g0⟩ := r.headG hB
    have ih := findLoopS_le r oc so p R (G ++ [g]) n (by rw [hB]; simp)
    rw [hg, findLoopS, if_neg g0, r.inspect oc hB (so i g (by rw [hB]; simp))]
    split
    · simp
    · simpa using ih

theorem linkPointUS_eq (p : Id → Bool) (h : Heap) : ∀ (n : Nat) (x : Id), linkPointUS p h n x = findLoopS .uniq p h n x
  | 0, _ => rfl
  | n + 1, x => by
    simp only [linkPointUS, findLoopS]
    rw [linkPointUS_eq p h n]
    rfl

theorem linkPointNS_le (r : Rep h a hd T) (oc : OfCat .multi T) (so : ∀ i, ∀ g ∈ T.B i, g.Solid) (eq : Id → Id → Bool) (p : Id → Bool) {i : Nat} :
    ∀ (R G : List Grp) (n : Nat), T.B i = G ++ R → (linkPointNS eq p h n ((gnodes R).headD 0)).2 ≤ R.length
  | [], G, n, _ => by cases n <;> simp [linkPointNS]
  | g :: R, G, 0, hB => Nat.zero_le _
  | g :: R, G, n + 1, hB => by
    obtain ⟨hg, g0⟩ := r.headG hB
    have ih := linkPointNS_le r oc so eq p R (G ++ [g]) n (by rw [hB]; simp)
    have := r.inspect oc hB (so i g (by rw [hB]; simp))
    simp only [nextToInspect] at this
    rw [hg, linkPointNS, if_neg g0, this]
    split
    · simp
    · simpa using ih

theorem countLoopS_le (c : Cat) (h : Heap) (y : Id) : ∀ n x res m, countLoop c h y n x res = .ok m → (countLoopS c h y n x res).2 + res = m
  | 0, _, _, _, e => nomatch e
  | n + 1, x, res, m, e => by
    simp only [countLoop, countLoopS] at e ⊢
    split at e
    · rename_i q
      cases e
      rw [if_pos q]
      simp only; omega
    · rename_i q
      rw [if_neg q]
      have := countLoopS_le c h y n _ _ m e
      simp only [tickO_snd]; omega

theorem inPlaceUS_le (r : Rep h a hd T) (oc : OfCat .uniq T) (p : Id → Bool) (x : Id) {i : Nat} :
    ∀ (v u : List Id) (n : Nat) (f : Bool), gnodes (T.B i) = u ++ v → (inPlaceUS p h x n (v.headD 0) f).2 ≤ v.length
  | [], u, n, f, _ => by cases n <;> simp [inPlaceUS]
  | y :: v, u, 0, f, _ => Nat.zero_le _
  | y :: v, u, n + 1, f, e => by
    have al : U.afterLocal h y = v.headD 0 := r.afterLocal oc e
    have y0 : y ≠ 0 := by
      rintro rfl
      exact r.nz (List.mem_cons_of_mem _ (r.mem_nodes.2 ⟨i, by rw [e]; simp⟩))
    have ih := fun f => inPlaceUS_le r oc p x v (u ++ [y]) n f (by rw [e]; simp)
    simp only [List.headD_cons, inPlaceUS, if_neg y0, al]
    split
    · simpa using ih true
    · split
      · simp
      · simpa using ih f

theorem inPlaceScanS_succ (h : Heap) (x z : Id) (n : Nat) (y : Id) : inPlaceScanS h x z (n + 1) y =
    if y = x then (.ok true, 1) else if N.afterLocal h y = z then (.ok false, 1) else tickO (inPlaceScanS h x z n (N.afterLocal h y)) := rfl

theorem inPlaceScanS_le (r : Rep h a hd T) (oc : OfCat .multi T) (x : Id) {i : Nat} {w : List Id} :
    ∀ (v u : List Id) (y : Id) (n : Nat), gnodes (T.B i) = u ++ y :: v ++ w → (inPlaceScanS h x (w.headD 0) n y).2 ≤ v.length + 1
  | v, u, y, 0, _ => Nat.zero_le _
  | [], u, y, n + 1, e => by
    have al : N.afterLocal h y = w.headD 0 := r.afterLocal oc (c := .multi) (u := u) (v := w) (by rw [e]; simp)
    rw [inPlaceScanS_succ, al]
    split <;> simp
  | z :: v, u, y, n + 1, e => by
    have al : N.afterLocal h y = z := r.afterLocal oc (c := .multi) (u := u) (v := z :: v ++ w) (by rw [e]; simp)
    have ih := inPlaceScanS_le r oc x (w := w) v (u ++ [y]) z n (by rw [e]; simp)
    rw [inPlaceScanS_succ, al]
    split
    · simp
    · split
      · simp
      · simp only [tickO_snd, List.length_cons]; omega

/-- The scan passes all the elements before the one it looks for. -/
theorem inPlaceScanS_last (r : Rep h a hd T) (oc : OfCat .multi T) (x : Id) {i : Nat} {w : List Id} :
    ∀ (v u : List Id) (y : Id) (n : Nat), gnodes (T.B i) = u ++ y :: v ++ x :: w → v.length + 2 ≤ n →
      (inPlaceScanS h x (w.headD 0) n y).2 = v.length + 2
  | v, u, y, 0, _, hn => by omega
  | v, u, y, n + 1, e, hn => by
    have nd := r.bucket_nodup i
    have yx : y ≠ x := by
      rintro rfl
      rw [e, List.nodup_append] at nd
      exact nd.2.2 y (by simp) y (by simp) rfl
    have al : N.afterLocal h y = (v ++ x :: w).headD 0 := r.afterLocal oc (c := .multi) (u := u) (v := v ++ x :: w) (by rw [e]; simp)
    have ne : ∀ z ∈ v ++ [x], z ≠ w.headD 0 := by
      intro z hz
      cases w with
      | nil =>
        rintro rfl
        refine r.nz (List.mem_cons_of_mem _ (r.mem_nodes.2 ⟨i, ?_⟩))
        rw [e]
        simp only [List.headD_nil] at hz
        simp only [List.mem_append, List.mem_cons] at hz ⊢
        tauto
      | cons w0 w =>
        intro k
        rw [show u ++ y :: v ++ x :: w0 :: w = (u ++ [y]) ++ ((v ++ [x]) ++ (w0 :: w)) by simp] at e
        rw [e, List.nodup_append] at nd
        exact (List.nodup_append.1 nd.2.1).2.2 _ hz w0 (by simp) k
    rw [inPlaceScanS_succ, if_neg yx, al]
    cases v with
    | nil =>
      rw [show (([] : List Id) ++ x :: w).headD 0 = x from rfl, if_neg (ne x (by simp))]
      cases n with
      | zero => simp only [List.length_nil] at hn; omega
      | succ n =>
        rw [inPlaceScanS_succ, if_pos rfl]; rfl
    | cons z v =>
      rw [show (z :: v ++ x :: w).headD 0 = z from rfl, if_neg (ne z (by simp))]
      have := inPlaceScanS_last r oc x (w := w) v (u ++ [y]) z n (by rw [e]; simp) (by simpa using hn)
      rw [tickO_snd, this]
      simp

theorem inPlaceNS_le (r : Rep h a hd T) (oc : OfCat .multi T) (so : ∀ i, ∀ g ∈ T.B i, g.Solid) (p : Id → Bool) (x : Id) {i M : Nat} :
    ∀ (R G : List Grp) (n : Nat) (f : Bool) (rs : Nat), T.B i = G ++ R → (∀ g ∈ R, g.first ≠ x → p g.first = true → g.toList.length ≤ M) →
      (inPlaceNS p h x n ((gnodes R).headD 0) f rs).2 ≤ R.length + M
  | [], G, n, f, rs, _, _ => by cases n <;> simp [inPlaceNS]
  | g :: R, G, 0, f, rs, hB, _ => Nat.zero_le _
  | g :: R, G, n + 1, f, rs, hB, hM => by
    obtain ⟨p', ob, ob', f', lc, -⟩ := r.loc hB
    obtain ⟨l1, l2⟩ := N.firstOfGroup_loc lc (so i g (by rw [hB]; simp))
    obtain ⟨hg, g0⟩ := r.headG hB
    have ih := fun f rs => inPlaceNS_le r oc so p x R (G ++ [g]) n f rs (by rw [hB]; simp) (fun g hg => hM g (by simp [hg]))
    have ih' : ∀ f rs, (tickO (inPlaceNS p h x n ((gnodes R).headD 0) f rs)).2 ≤ (g :: R).length + M := fun f rs => by
      have := ih f rs
      simp only [tickO_snd, List.length_cons]; omega
    have one : ∀ o : Out Bool, ((o, 1) : Out Bool × Nat).2 ≤ (g :: R).length + M := fun o => by
      simp only [List.length_cons]; omega
    rw [hg, inPlaceNS, if_neg g0]
    cases g with
    | one y =>
      have al : N.afterLocal h y = (gnodes R).headD 0 :=
        r.afterLocal oc (c := .multi) (u := gnodes G) (v := gnodes R) (by rw [hB]; simp)
      simp only [Grp.first_one, l1 y rfl, al, Bool.false_eq_true, if_false]
      repeat (first | exact one _ | exact ih' _ _ | split)
    | many y mid l =>
      obtain ⟨a1, a2, a3⟩ := l2 y mid l rfl
      have al : N.afterLocal h l = (gnodes R).headD 0 :=
        r.afterLocal oc (c := .multi) (u := gnodes G ++ y :: mid) (v := gnodes R) (by rw [hB]; simp)
      rw [a2] at a3
      simp only [Grp.first_many, a1, a2, a3, al, if_true]
      split
      · exact one _
      · rename_i q1
        split
        · rename_i q2
          split
          · exact one _
          · have sc := inPlaceScanS_le r oc x (i := i) (w := gnodes R) (mid ++ [l]) (gnodes G) y (n + 1) (by rw [hB]; simp)
            have := hM (.many y mid l) (by simp) q1 q2
            simp only [Grp.toList_many, List.length_cons, List.length_append, List.length_nil] at this sc
            simp only [tickO_snd, List.length_cons]
            omega
        · repeat (first | exact one _ | exact ih' _ _ | split)

/-- Groups drawn differently consist of the same elements. -/
theorem mem_parts {g g' : Grp} (m : g' ∈ g.parts) : ∀ x ∈ g'.toList, x ∈ g.toList := by
  cases g with
  | one x => simp only [Grp.parts, List.mem_singleton] at m; subst m; exact fun _ h => h
  | many f mid l =>
    cases mid with
    | nil =>
      simp only [Grp.parts, List.mem_cons, List.not_mem_nil, or_false] at m
      rcases m with rfl | rfl <;> simp
    | cons s r => simp only [Grp.parts, List.mem_singleton] at m; subst m; exact fun _ h => h

theorem Good.same_parts {eq : Id → Id → Bool} {hash : Id → Nat} (gd : Good c a.size eq hash T) (i : Nat) : ∀ g ∈ T.parts.B i, ∀ x ∈ g.toList, ∀ y ∈ g.toList, eq x y = true := by
  intro g hg x hx y hy
  obtain ⟨g0, m0, hg⟩ := List.mem_flatMap.1 hg
  exact gd.same i g0 m0 x (mem_parts hg x hx) y (mem_parts hg y hy)

end

section
variable {h : Heap} {a : Arr} {hd : Id}

/-- Any number of elements with the same key, inserted one after the other. -/
theorem same_key : ∀ N : Nat, ∃ h xs, Holds .multi (fun _ _ => true) (fun _ => 0) h ⟨2, 1⟩ 1 xs ∧ xs.length = N ∧ ∀ x ∈ xs, 4 ≤ x ∧ x < 4 + N
  | 0 => ⟨clear ⟨fun _ => 0, fun _ => 0⟩ ⟨2, 1⟩ 1, [], holds_clear _ _ _ _ (by decide) (by decide) (by decide) (by decide), rfl, by simp⟩
  | N + 1 => by
    obtain ⟨h, xs, w, l, m⟩ := same_key N
    have eh : EqHash (fun _ _ : Id => true) (fun _ => 0) := ⟨fun _ => rfl, fun _ => rfl, fun _ _ => rfl, fun _ => rfl⟩
    rcases w.linkPoint eh (n := N) (by omega) (4 + N) with ⟨y, -, c, -⟩ | ⟨pos, -, -, u, v, rfl, -, w'⟩
    · cases c
    · have fr : FreshId ⟨2, 1⟩ 1 (u ++ v) (4 + N) := by
        refine ⟨by idomega, ?_, Or.inr (by simp only [Arr.endB]; idomega)⟩
        rw [List.mem_cons, not_or]
        refine ⟨by idomega, fun k => ?_⟩
        have := m _ k
        idomega
      refine ⟨_, _, w' fr, by simp only [List.length_append, List.length_cons] at l ⊢; omega, ?_⟩
      intro x hx
      simp only [List.mem_append, List.mem_cons] at hx
      rcases hx with hx | rfl | hx
      · have := m x (by simp [hx]); idomega
      · idomega
      · have := m x (by simp [hx]); idomega

/-- All of them are in one group, and looking for the last of them passes all of them. -/
theorem same_key_rounds {xs : List Id} {h : Heap} (w : Holds .multi (fun _ _ => true) (fun _ => 0) h ⟨2, 1⟩ 1 xs) (hl : 3 ≤ xs.length) :
    ∃ x ∈ xs, (inPlaceS xs.length .multi (fun _ => true) 0 h ⟨2, 1⟩ x).2 = xs.length + 1 := by
  obtain ⟨s0, T, r, gd, rfl⟩ := w
  have hB : ∃ g, T.B 0 = [g] ∧ T.nodes = g.toList := by
    have f := bucket_filter r gd 0
    have e : T.nodes = gnodes (T.B 0) := by
      rw [← f, List.filter_eq_self.2]
      intro x _
      simp
    have d := gd.diff 0
    cases q : T.B 0 with
    | nil => rw [e, q] at hl; simp at hl
    | cons g R =>
      cases R with
      | nil => exact ⟨g, rfl, by rw [e, q]; simp⟩
      | cons g' R =>
        rw [q, List.pairwise_cons] at d
        have := d.1 g' (by simp) g.first g.first_mem g'.first g'.first_mem
        cases this
  obtain ⟨g, hB, hn⟩ := hB
  cases g with
  | one x => rw [hn] at hl; simp at hl
  | many f mid l =>
    refine ⟨l, by rw [hn]; simp, ?_⟩
    have r' := rep_parts.2 r
    have so := fun i g hg => parts_solid T i g hg
    cases mid with
    | nil => rw [hn] at hl; simp at hl
    | cons s mid =>
      have hB' : T.parts.B 0 = [.many f (s :: mid) l] := by simp [Tab.parts, hB, Grp.parts]
      obtain ⟨p', ob, ob', f', lc, -⟩ := r'.loc (G1 := []) hB'
      obtain ⟨-, l2⟩ := N.firstOfGroup_loc lc (so 0 _ (by rw [hB']; simp))
      obtain ⟨a1, a2, a3⟩ := l2 _ _ _ rfl
      obtain ⟨-, g0⟩ := r'.headG (G := []) hB'
      have al : N.afterLocal h l = 0 :=
        r'.afterLocal gd.cat.parts (c := .multi) (i := 0) (u := f :: s :: mid) (v := []) (by rw [hB']; simp [gnodes])
      have fl : f ≠ l := by
        have := r.bucket_nodup 0
        rw [hB] at this
        rintro rfl
        simp [gnodes] at this
      have sc := inPlaceScanS_last r' gd.cat.parts l (i := 0) (w := []) (s :: mid) [] f T.nodes.length (by rw [hB']; simp [gnodes])
        (by rw [hn]; simp only [Grp.toList_many, List.length_cons, List.length_append, List.length_nil]; omega)
      have b := r'.bucketFirst (i := 0) (by decide)
      rw [hB'] at b
      simp only [gnodes, List.flatMap_cons, List.flatMap_nil, Grp.toList_many, List.cons_append, List.headD_cons] at b
      simp only [Grp.first_many] at g0
      obtain ⟨m, hm⟩ : ∃ m, T.nodes.length = m + 1 := ⟨T.nodes.length - 1, by omega⟩
      have sc' : T.nodes.length = mid.length + 3 := by
        rw [hn]; simp only [Grp.toList_many, List.length_cons, List.length_append, List.length_nil]
      unfold inPlaceS
      simp only [Arr.at, Arr.position, Nat.zero_mod]
      rw [b, hm, inPlaceNS, if_neg g0, if_pos a1, if_neg fl, a3, al]
      simp only [if_true, Bool.false_eq_true, if_false, tickO_snd]
      rw [hm] at sc sc'
      simp only [List.headD_nil, List.length_cons] at sc
      rw [sc]
      omega

end
end MI.Hash
