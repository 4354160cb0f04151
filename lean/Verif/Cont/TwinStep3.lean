import Verif.Cont.TwinStep2
import Verif.Cont.ApiLemmas4
/-!
One operation of two programs that look alike (concluded): handles, creation of containers, rearrangements, tuning.
-/
set_option linter.unusedVariables false
set_option linter.unusedSimpArgs false
namespace MI.Cont
open MI
variable {V : Type} {g : Prop} {φ ψ : Id → Id} {w v w1 v1 : World V} {i j k : Nat} {c d c1 d1 : Container V} {x x' : Id} {r r' : Ret}

/-- Containers are as they were. -/
theorem rest_like (A : w.Alike g φ v) (hw : w1.cs = w.cs) (hv : v1.cs = v.cs) (mv : w1.m.val = w.m.val) (mv' : v1.m.val = v.m.val)
    (sub : ∀ z ∈ w1.m.cons, z ∈ w.m.cons) (node : ∀ z ∈ w1.m.cons, φ z ∈ v1.m.cons) (hs : v1.hs = w1.hs.map (Option.map φ)) : w1.Alike g φ v1 := by
  refine ⟨fun z hz => ?_, node, fun y hy z hz => A.inj y (sub y hy) z (sub z hz), hs, by rw [hw, hv, A.len], ?_⟩
  · rw [mv, mv']; exact A.val z (sub z hz)
  · rw [hw, hv, mv, mv']; exact A.cs

/-- Deletion of what a handle owns. -/
theorem drop_like {nh : Option Id} {h : Nat} {m m' : Mem V} (A : w.Alike g φ v) (I : Inv w) (J : Inv v) (hh : w.hs[h]? = some nh) (hm : w.m.deleteOpt nh = some m)
    (hm' : v.m.deleteOpt (nh.map φ) = some m') :
    m.val = w.m.val ∧ m'.val = v.m.val ∧ (∀ z ∈ m.cons, z ∈ w.m.cons) ∧ ∀ z ∈ m.cons, φ z ∈ m'.cons := by
  cases nh with
  | none => cases hm; cases hm'; exact ⟨rfl, rfl, fun _ h => h, A.node⟩
  | some x =>
    have xc : x ∈ w.m.cons := I.handle_cons (mem_handled hh)
    have yc := A.node x xc
    replace hm : w.m.deleteNode x = some m := hm
    replace hm' : v.m.deleteNode (φ x) = some m' := hm'
    rw [Mem.deleteNode_mem (I.cons_sub xc) xc] at hm
    rw [Mem.deleteNode_mem (J.cons_sub yc) yc] at hm'
    cases hm; cases hm'
    refine ⟨rfl, rfl, fun z hz => List.mem_of_mem_erase hz, fun z hz => ?_⟩
    obtain ⟨h1, h2⟩ := I.cons_nodup.mem_erase_iff.1 hz
    exact (List.mem_erase_of_ne fun q => h1 (A.inj z h2 x xc q)).2 (A.node z h2)

theorem World.Alike.handle (A : w.Alike g φ v) {h : Nat} : v.hs[h]? = (w.hs[h]?).map (Option.map φ) := by rw [A.hs, List.getElem?_map]

theorem nil_pos (I : Inv w) (h : (0 : Id) ∈ w.m.cons) : False := I.nz (I.cons_sub h)

theorem twin_newHandle (A : w.Alike g φ v) (I : Inv w) (s : w.step .newHandle = .ok (w1, r)) (s' : v.step .newHandle = .ok (v1, r')) : Outcome g φ w1 v1 r r' := by
  simp only [World.step] at s s'
  cases s; cases s'
  exact ⟨rfl, fun _ h => (nil_pos I h).elim, rest_like A rfl rfl rfl rfl (fun _ h => h) A.node (by simp [A.hs])⟩

theorem twin_dropHandle {h : Nat} (A : w.Alike g φ v) (I : Inv w) (J : Inv v) (s : w.step (.dropHandle h) = .ok (w1, r)) (s' : v.step (.dropHandle h) = .ok (v1, r')) :
    Outcome g φ w1 v1 r r' := by
  simp only [World.step, A.handle] at s s'
  cases hh : w.hs[h]? with
  | none => simp [hh] at s
  | some nh =>
    simp only [hh, Option.map_some] at s s'
    cases hm : w.m.deleteOpt nh with
    | none => simp [hm] at s
    | some m =>
      cases hm' : v.m.deleteOpt (nh.map φ) with
      | none => simp [hm'] at s'
      | some m' =>
        simp only [hm, hm'] at s s'
        cases s; cases s'
        obtain ⟨h1, h2, h3, h4⟩ := drop_like A I J hh hm hm'
        exact ⟨rfl, fun _ h => (nil_pos I (h3 _ h)).elim, rest_like A rfl rfl h1 h2 h3 h4 (by simp [A.hs, List.map_set])⟩

theorem twin_moveHandle {h k : Nat} (A : w.Alike g φ v) (I : Inv w) (J : Inv v) (s : w.step (.moveHandle h k) = .ok (w1, r)) (s' : v.step (.moveHandle h k) = .ok (v1, r')) :
    Outcome g φ w1 v1 r r' := by
  simp only [World.step, A.handle] at s s'
  cases hh : w.hs[h]? with
  | none => simp [hh] at s
  | some nh =>
    cases hk : w.hs[k]? with
    | none => simp [hh, hk] at s
    | some nk =>
      simp only [hh, hk, Option.map_some] at s s'
      by_cases e : h = k
      · simp only [e, if_true] at s s'
        cases s; cases s'
        exact ⟨rfl, fun _ h => (nil_pos I h).elim, A⟩
      · simp only [e, if_false] at s s'
        cases hm : w.m.deleteOpt nh with
        | none => simp [hm] at s
        | some m =>
          cases hm' : v.m.deleteOpt (nh.map φ) with
          | none => simp [hm'] at s'
          | some m' =>
            simp only [hm, hm'] at s s'
            cases s; cases s'
            obtain ⟨h1, h2, h3, h4⟩ := drop_like A I J hh hm hm'
            exact ⟨rfl, fun _ h => (nil_pos I (h3 _ h)).elim, rest_like A rfl rfl h1 h2 h3 h4 (by simp [A.hs, List.map_set])⟩

theorem twin_swapHandles {h k : Nat} (A : w.Alike g φ v) (I : Inv w) (s : w.step (.swapHandles h k) = .ok (w1, r)) (s' : v.step (.swapHandles h k) = .ok (v1, r')) :
    Outcome g φ w1 v1 r r' := by
  simp only [World.step, A.handle] at s s'
  cases hh : w.hs[h]? with
  | none => simp [hh] at s
  | some nh =>
    cases hk : w.hs[k]? with
    | none => simp [hh, hk] at s
    | some nk =>
      simp only [hh, hk, Option.map_some] at s s'
      cases s; cases s'
      exact ⟨rfl, fun _ h => (nil_pos I h).elim, rest_like A rfl rfl rfl rfl (fun _ h => h) A.node (by simp [A.hs, List.map_set])⟩

/-- Exchange of two containers. -/
theorem exchange_like (A : w.Alike g φ v) (I : Inv w) (J : Inv v) {ci cj di dj : Container V} (hi : w.cs[i]? = some ci) (hj : w.cs[j]? = some cj) (hi' : v.cs[i]? = some di)
    (hj' : v.cs[j]? = some dj) : World.Alike g φ ⟨w.m, (w.cs.set i cj).set j ci, w.hs⟩ ⟨v.m, (v.cs.set i dj).set j di, v.hs⟩ := by
  refine ⟨A.val, A.node, A.inj, A.hs, by simpa using A.len, fun n e f he hf => ?_⟩
  have he : ((w.cs.set i cj).set j ci)[n]? = some e := he
  have hf : ((v.cs.set i dj).set j di)[n]? = some f := hf
  by_cases nj : j = n
  · subst nj
    rw [List.getElem?_set_self (by rw [List.length_set]; exact (List.getElem?_eq_some_iff.1 hj).1)] at he
    rw [List.getElem?_set_self (by rw [List.length_set]; exact (List.getElem?_eq_some_iff.1 hj').1)] at hf
    cases he; cases hf
    exact A.cs i _ _ hi hi'
  · rw [List.getElem?_set_ne nj] at he hf
    by_cases ni : i = n
    · subst ni
      rw [List.getElem?_set_self (List.getElem?_eq_some_iff.1 hi).1] at he
      rw [List.getElem?_set_self (List.getElem?_eq_some_iff.1 hi').1] at hf
      cases he; cases hf
      exact A.cs j _ _ hj hj'
    · rw [List.getElem?_set_ne ni] at he hf
      exact A.cs n e f he hf

theorem twin_swap (A : w.Alike g φ v) (I : Inv w) (J : Inv v) (l : w.Legal (.swap i j)) (l' : v.Legal (.swap i j))
    (s : w.step (.swap i j) = .ok (w1, r)) (s' : v.step (.swap i j) = .ok (v1, r')) : Outcome g φ w1 v1 r r' := by
  obtain ⟨ci, cj, hi, hj, k⟩ := l
  obtain ⟨di, dj, hi', hj', k'⟩ := l'
  rw [eff_swap hi hj k] at s
  rw [eff_swap hi' hj' k'] at s'
  cases s; cases s'
  exact ⟨rfl, fun _ h => (nil_pos I h).elim, exchange_like A I J hi hj hi' hj'⟩

theorem twin_swapElements (A : w.Alike g φ v) (I : Inv w) (J : Inv v) (l : w.Legal (.swapElements i j)) (l' : v.Legal (.swapElements i j))
    (s : w.step (.swapElements i j) = .ok (w1, r)) (s' : v.step (.swapElements i j) = .ok (v1, r')) : Outcome g φ w1 v1 r r' := by
  obtain ⟨ci, cj, hi, hj, k⟩ := l
  obtain ⟨di, dj, hi', hj', k'⟩ := l'
  rw [eff_swapElements hi hj k] at s
  rw [eff_swapElements hi' hj' k'] at s'
  cases s; cases s'
  exact ⟨rfl, fun _ h => (nil_pos I h).elim, exchange_like A I J hi hj hi' hj'⟩

/-- A container has been added. -/
theorem append_like (A : w.Alike g φ v) (I : Inv w) (hψ : ∀ z ∈ w.m.cons, ψ z = φ z) (hw : w1.cs = w.cs ++ [c1]) (hv : v1.cs = v.cs ++ [d1])
    (k1 : ∀ z ∈ w.m.cons, w1.m.val z = w.m.val z) (k2 : ∀ z ∈ v.m.cons, v1.m.val z = v.m.val z) (new : c1.Alike g ψ w1.m.val v1.m.val d1)
    (val : ∀ z ∈ w1.m.cons, v1.m.val (ψ z) = w1.m.val z) (node : ∀ z ∈ w1.m.cons, ψ z ∈ v1.m.cons)
    (inj : ∀ y ∈ w1.m.cons, ∀ z ∈ w1.m.cons, ψ y = ψ z → y = z) (hs : v1.hs = w1.hs.map (Option.map ψ)) : w1.Alike g ψ v1 := by
  refine ⟨val, node, inj, hs, by rw [hw, hv]; simpa using A.len, fun n e f he hf => ?_⟩
  rw [hw, List.getElem?_append] at he
  rw [hv, List.getElem?_append, A.len] at hf
  split at he
  · rw [if_pos (by assumption)] at hf
    have me : ∀ z ∈ e.elems, z ∈ w.m.cons := fun z hz => I.elem_cons (List.mem_of_getElem? he) hz
    exact stay_alike A I he hf (fun z hz => hψ z (me z hz)) (fun z hz => k1 z (me z hz)) (fun z hz => k2 _ (A.node z (me z hz)))
  · rw [if_neg (by assumption)] at hf
    have : n - w.cs.length = 0 := by
      have := (List.getElem?_eq_some_iff.1 he).1
      simpa using this
    rw [this] at he hf
    cases he; cases hf
    exact new

theorem twin_new {hd z hd' z' : Id} {is is' : List (Init V)} (A : w.Alike g φ v) (rw' : Reach w) (rv : Reach v) (hs : is'.map Init.spec = is.map Init.spec)
    (l : w.Legal (.new hd z is)) (l' : v.Legal (.new hd' z' is'))
    (s : w.step (.new hd z is) = .ok (w1, r)) (s' : v.step (.new hd' z' is') = .ok (v1, r')) : Outcome g φ w1 v1 r r' := by
  obtain ⟨w2, c, q, -, q1, -, -, q2, q3, q4, q5, q6⟩ := eff_new rw' l
  obtain ⟨v2, d, q', -, q1', -, -, q2', q3', q4', q5', q6'⟩ := eff_new rv l'
  rw [q] at s; rw [q'] at s'
  cases s; cases s'
  refine ⟨rfl, fun _ h => (nil_pos rw'.inv (by rw [q5] at h; exact h)).elim, append_like A rw'.inv (fun _ _ => rfl) q1 q1' (fun _ _ => by rw [q5]; rfl) (fun _ _ => by rw [q5']; rfl)
    (empty_alike (by rw [q3, q3', hs]) q2 q2' ?_ ?_) ?_ ?_ ?_ (by rw [q6, q6', A.hs])⟩
  · rw [q4]; intro xs h; obtain ⟨_, _, rfl⟩ := List.mem_map.1 h; rfl
  · rw [q4']; intro xs h; obtain ⟨_, _, rfl⟩ := List.mem_map.1 h; rfl
  · rw [q5, q5']; exact A.val
  · rw [q5, q5']; exact A.node
  · rw [q5]; exact A.inj

theorem twin_newLike {hd z hd' z' : Id} {pol pol' : Pol} {e e' : Nat → Env} {F F' : CopyFault} (A : w.Alike g φ v) (I : Inv w) (J : Inv v)
    (l : w.Legal (.newLike i hd z pol e F)) (l' : v.Legal (.newLike i hd' z' pol' e' F'))
    (s : w.step (.newLike i hd z pol e F) = .ok (w1, r)) (s' : v.step (.newLike i hd' z' pol' e' F') = .ok (v1, r')) : Outcome g φ w1 v1 r r' := by
  rcases eff_newLike I l with ⟨w2, c, c1, q, hi, -, q1, q6, q5, -, q3, q2, q4⟩ | ⟨c, q, -⟩ <;> rw [q] at s <;> cases s
  rcases eff_newLike J l' with ⟨v2, d, d1, q', hj, -, q1', q6', q5', -, q3', q2', q4'⟩ | ⟨d, q', -⟩ <;> rw [q'] at s' <;> cases s'
  refine ⟨rfl, fun _ h => (nil_pos I (by rw [q5] at h; exact h)).elim, append_like A I (fun _ _ => rfl) q1 q1' (fun _ _ => by rw [q5]; rfl) (fun _ _ => by rw [q5']; rfl)
    (empty_alike (by rw [q3, q3', (A.cs i c d hi hj).asked]) q2 q2' ?_ ?_) ?_ ?_ ?_ (by rw [q6, q6', A.hs])⟩
  · rw [q4]; intro xs h; obtain ⟨_, _, rfl⟩ := List.mem_map.1 h; rfl
  · rw [q4']; intro xs h; obtain ⟨_, _, rfl⟩ := List.mem_map.1 h; rfl
  · rw [q5, q5']; exact A.val
  · rw [q5, q5']; exact A.node
  · rw [q5]; exact A.inj

/-- Images of sequences that look alike. -/
theorem Spec.Alike.images {S : Spec V} {xs ys : List Id} {val val' val1 val1' : Id → V} {κ κ' : Id → Id} (h : S.Alike g φ val val' xs ys)
    (hκ : ∀ z ∈ xs, ψ (κ z) = κ' (φ z)) (h1 : ∀ z ∈ xs, val1 (κ z) = val z) (h2 : ∀ z ∈ ys, val1' (κ' z) = val' z) :
    S.Alike g ψ val1 val1' (xs.map κ) (ys.map κ') := by
  have e : ∀ {l : List Id}, (∀ a ∈ l, a ∈ xs) → (l.map φ).map κ' = (l.map κ).map ψ := fun hl => by
    rw [List.map_map, List.map_map]
    exact List.map_congr_left fun a ha => (hκ a (hl a ha)).symm
  cases S with
  | hash n eq hf =>
    refine ⟨by rw [← e fun _ h => h]; exact h.1.map _, fun k a => ?_⟩
    rw [List.filter_map, List.filter_map, List.filter_congr (q := fun z => eq a (val' z)) fun z hz => by simp only [Function.comp_apply, h2 z hz],
      List.filter_congr (l := xs) (q := fun z => eq a (val z)) fun z hz => by simp only [Function.comp_apply, h1 z hz], h.2 k a, e fun a ha => List.mem_of_mem_filter ha]
  | ord => show ys.map κ' = _; rw [show ys = xs.map φ from h, e fun _ h => h]
  | seq => show ys.map κ' = _; rw [show ys = xs.map φ from h, e fun _ h => h]
  | rnd => show ys.map κ' = _; rw [show ys = xs.map φ from h, e fun _ h => h]

theorem map_vals {κ : Id → Id} {val val1 : Id → V} : ∀ {xs : List Id}, (xs.map κ).map val1 = xs.map val → ∀ z ∈ xs, val1 (κ z) = val z
  | a :: xs, h, z, hz => by
    simp only [List.map_cons, List.cons.injEq] at h
    rcases List.mem_cons.1 hz with hz | hz
    · rw [hz]; exact h.1
    · exact map_vals h.2 z hz

theorem twin_copy {hd z hd' z' : Id} {ns ns' : List Id} {e e' : Nat → Env} {F F' : CopyFault} (A : w.Alike g φ v) (I : Inv w) (J : Inv v) (hψ : ∀ x ∈ w.m.cons, ψ x = φ x)
    (hb : Both w v i (fun c d => ∀ (k l : Nat) (x n n' : Id), c.elems[k]? = some x → d.elems[l]? = some (φ x) → ns[k]? = some n → ns'[l]? = some n' → ψ n = n'))
    (l : w.Legal (.copy i hd z ns e F)) (l' : v.Legal (.copy i hd' z' ns' e' F'))
    (s : w.step (.copy i hd z ns e F) = .ok (w1, r)) (s' : v.step (.copy i hd' z' ns' e' F') = .ok (v1, r')) : Outcome g ψ w1 v1 r r' := by
  obtain ⟨-, -, -, nd, fr, -⟩ := id l
  obtain ⟨-, -, -, nd', fr', -⟩ := id l'
  rcases eff_copy I l with ⟨w2, c, c1, q, hi, -, Q⟩ | ⟨w2, c, q, -⟩ <;> rw [q] at s <;> cases s
  rcases eff_copy J l' with ⟨v2, d, d1, q', hj, -, Q'⟩ | ⟨v2, d, q', -⟩ <;> rw [q'] at s' <;> cases s'
  have p := A.pair' I J hi hj
  have hb := hb c d hi hj
  obtain ⟨κ, e1, e2⟩ := Q.clone
  obtain ⟨κ', e1', e2'⟩ := Q'.clone
  have hκ : ∀ x ∈ c.elems, ψ (κ x) = κ' (φ x) := fun x hx => by
    obtain ⟨k, hk⟩ := List.mem_iff_getElem?.1 hx
    obtain ⟨n, hn⟩ := List.mem_iff_getElem?.1 (p.mem hx)
    exact hb k n x _ _ hk hn (by rw [← e2, List.getElem?_map, hk]; rfl) (by rw [← e2', List.getElem?_map, hn]; rfl)
  have k1 : ∀ z ∈ w.m.cons, w1.m.val z = w.m.val z := fun z hz => Q.val z (I.cons_sub hz)
  have k2 : ∀ z ∈ v.m.cons, v1.m.val z = v.m.val z := fun z hz => Q'.val z (J.cons_sub hz)
  have va : ∀ (l : Nat) xs, c.seqs[l]? = some xs → ∀ z ∈ xs, w1.m.val (κ z) = w.m.val z := fun l xs h => by
    have := congrArg (·[l]?) Q.vals
    simp only [e1, List.getElem?_map, h, Option.map_some, Option.some.injEq] at this
    exact map_vals this
  have vb : ∀ (l : Nat) xs, d.seqs[l]? = some xs → ∀ z ∈ xs, v1.m.val (κ' z) = v.m.val z := fun l xs h => by
    have := congrArg (·[l]?) Q'.vals
    simp only [e1', List.getElem?_map, h, Option.map_some, Option.some.injEq] at this
    exact map_vals this
  have new : c1.Alike g ψ w1.m.val v1.m.val d1 := by
    refine alike_of p.like Q.asked Q'.asked (by rw [Q.count, Q'.count, p.like.count]) fun l S xs ys xs1 ys1 h1 h2 h3 h4 h5 h6 => ?_
    rw [e1, List.getElem?_map, h2] at h4
    rw [e1', List.getElem?_map, h3] at h5
    cases h4; cases h5
    obtain ⟨q1, -⟩ := p.index I J h2 h3
    exact h6.images (fun z hz => hκ z (q1.mem_iff.1 hz)) (va l xs h2) (vb l ys h3)
  have mem : ∀ z ∈ w1.m.cons, z ∈ w.m.cons ∨ ∃ x ∈ c.elems, κ x = z := fun z hz => by
    rw [Q.cons, List.mem_append, List.mem_reverse, ← e2] at hz
    rcases hz with hz | hz
    · exact Or.inr (List.mem_map.1 hz)
    · exact Or.inl hz
  have nin : ∀ x ∈ c.elems, κ' (φ x) ∈ ns' := fun x hx => by rw [← e2']; exact List.mem_map_of_mem (p.mem hx)
  have off : ∀ n ∈ ns', n ∉ v.m.cons := fun n hn h => (fr' n (List.mem_cons_of_mem _ hn)).2.1 (J.cons_sub h)
  have ninj : ∀ x ∈ c.elems, ∀ y ∈ c.elems, κ' (φ x) = κ' (φ y) → x = y := fun x hx y hy h => by
    refine A.inj x (p.cons x hx) y (p.cons y hy) (List.inj_on_of_nodup_map ?_ (p.mem hx) (p.mem hy) h)
    rw [e2']
    exact (List.nodup_cons.1 nd').2
  have vv : ∀ x ∈ c.elems, v1.m.val (κ' (φ x)) = w1.m.val (κ x) := fun x hx => by
    have ne := asked_ne (I.facts hi).2.1
    have h0 : 0 < c.asked.length := List.length_pos_iff.2 ne
    obtain ⟨xs, hx0⟩ := seq_get (List.getElem?_eq_getElem h0)
    obtain ⟨ys, hy0⟩ := seq_get (c := d) (l := 0) (by rw [p.like.asked]; exact List.getElem?_eq_getElem h0)
    obtain ⟨q1, q2, -⟩ := p.index I J hx0 hy0
    rw [va 0 xs hx0 x (q1.mem_iff.2 hx), vb 0 ys hy0 _ (q2.mem_iff.2 (p.mem hx))]
    exact p.val x hx
  refine ⟨rfl, fun _ h => ?_, append_like A I hψ Q.cs Q'.cs k1 k2 new ?_ ?_ ?_ ?_⟩
  · rcases mem _ h with h | ⟨x, hx, h⟩
    · exact (nil_pos I h).elim
    · have : κ x ∈ ns := by rw [← e2]; exact List.mem_map_of_mem hx
      exact absurd h (fr _ (List.mem_cons_of_mem _ this)).1
  · intro z hz
    rcases mem z hz with h | ⟨x, hx, rfl⟩
    · rw [hψ z h, k1 z h, k2 _ (A.node z h)]; exact A.val z h
    · rw [hκ x hx]; exact vv x hx
  · intro z hz
    rw [Q'.cons, List.mem_append, List.mem_reverse]
    rcases mem z hz with h | ⟨x, hx, rfl⟩
    · exact Or.inr (by rw [hψ z h]; exact A.node z h)
    · exact Or.inl (by rw [hκ x hx]; exact nin x hx)
  · intro y hy z hz h
    rcases mem y hy with h1 | ⟨a, ha, rfl⟩ <;> rcases mem z hz with h2 | ⟨b, hb', rfl⟩
    · rw [hψ y h1, hψ z h2] at h; exact A.inj y h1 z h2 h
    · rw [hψ y h1, hκ b hb'] at h; exact absurd (A.node y h1) (h ▸ off _ (nin b hb'))
    · rw [hψ z h2, hκ a ha] at h; exact absurd (A.node z h2) (h ▸ off _ (nin a ha))
    · rw [hκ a ha, hκ b hb'] at h; rw [ninj a ha b hb' h]
  · rw [Q.hs, Q'.hs, A.hs, hs_congr I hψ]

/-! Rearrangements -/

theorem alike_plain {S : Spec V} {val val' : Id → V} {xs ys : List Id} {L : Layer V} (kd : L.keyed = false) : L.spec.Alike g φ val val' xs ys ↔ ys = xs.map φ := by
  cases L with
  | ord => exact nomatch kd
  | hash => exact nomatch kd
  | seq => exact Iff.rfl
  | rnd => exact Iff.rfl

/-- The order of one index without keys has changed. -/
theorem set_like (A : w.Alike g φ v) (I : Inv w) (J : Inv v) {L : Layer V} {xs1 ys1 : List Id} (o : OnlyAt w w1 i c c1) (o' : OnlyAt v v1 i d d1) (hL : c.ls[k]? = some L)
    (kd : L.keyed = false) (m : w1.m = w.m) (m' : v1.m = v.m) (hs : w1.hs = w.hs) (hs' : v1.hs = v.hs) (hc : c1.count = c.count) (hc' : d1.count = d.count)
    (e : c1.seqs = c.seqs.set k xs1) (e' : d1.seqs = d.seqs.set k ys1) (new : ys1 = xs1.map φ) : w1.Alike g φ v1 := by
  have p := A.pair' I J o.pre o'.pre
  refine A.put I o.pre o.cs o'.cs ?_ (fun _ _ _ => rfl) (fun _ _ _ => by rw [m]) (fun _ _ _ => by rw [m']) ?_ ?_ ?_ ?_
  · rw [m, m']
    refine alike_of p.like o.asked o'.asked (by rw [hc, hc', p.like.count]) fun l S xs ys as bs h1 h2 h3 h4 h5 h6 => ?_
    rw [e] at h4
    rw [e'] at h5
    by_cases q : k = l
    · subst q
      rw [List.getElem?_set_self (List.getElem?_eq_some_iff.1 h2).1] at h4
      rw [List.getElem?_set_self (List.getElem?_eq_some_iff.1 h3).1] at h5
      cases h4; cases h5
      rw [Container.asked, List.getElem?_map, hL] at h1
      cases h1
      exact (alike_plain (S := L.spec) kd).2 new
    · rw [List.getElem?_set_ne q, h2] at h4
      rw [List.getElem?_set_ne q, h3] at h5
      cases h4; cases h5
      exact h6
  · rw [m, m']; exact A.val
  · rw [m, m']; exact A.node
  · rw [m]; exact A.inj
  · rw [hs, hs']; exact A.hs

/-- Corresponding positions are at corresponding places. -/
theorem pos_map {p p' : Id} {u : List Id} (hn : c.hd ∉ c.elems) (hu : ∀ z ∈ u, z ∈ c.elems) (h : PosAlike φ c d p p') (a : At c.hd p u) : At d.hd p' (u.map φ) := by
  cases u with
  | nil =>
    have a : p = c.hd := a
    rcases h with ⟨-, rfl⟩ | ⟨h, -⟩
    · rfl
    · rw [a] at h; exact absurd h hn
  | cons y u =>
    have a : p = y := a
    have hy := hu y List.mem_cons_self
    rcases h with ⟨h, -⟩ | ⟨-, rfl⟩
    · rw [← a, h] at hy; exact absurd hy hn
    · rw [a]; rfl

theorem hd_off (I : Inv w) (hi : w.cs[i]? = some c) : c.hd ∉ c.elems := (List.nodup_cons.1 (I.facts hi).2.1.nodup).1

theorem plain_seqs (A : w.Alike g φ v) (I : Inv w) (J : Inv v) (p : Pair g φ w v i c d) {L : Layer V} {xs ys : List Id} (hL : c.ls[k]? = some L) (kd : L.keyed = false)
    (h2 : c.seqs[k]? = some xs) (h3 : d.seqs[k]? = some ys) : ys = xs.map φ := by
  have h1 : c.asked[k]? = some L.spec := by rw [Container.asked, List.getElem?_map, hL]; rfl
  exact (alike_plain (S := L.spec) kd).1 (each_nth p.like.seqs h1 h2 h3)

theorem twin_relocate {pos pos' : Id} (A : w.Alike g φ v) (I : Inv w) (J : Inv v) (hp : Both w v i (fun c d => PosAlike φ c d pos pos')) (l : w.Legal (.relocate i k pos x))
    (l' : v.Legal (.relocate i k pos' (φ x)))
    (s : w.step (.relocate i k pos x) = .ok (w1, r)) (s' : v.step (.relocate i k pos' (φ x)) = .ok (v1, r')) : Outcome g φ w1 v1 r r' := by
  obtain ⟨w2, c, c1, q, o, m, hs, hc, xs, xs1, h2, e, pm, b, -⟩ := eff_relocate I l
  obtain ⟨v2, d, d1, q', o', m', hs', hc', ys, ys1, h3, e', pm', b', -⟩ := eff_relocate J l'
  rw [q] at s; rw [q'] at s'
  cases s; cases s'
  have p := A.pair' I J o.pre o'.pre
  have hp := hp c d o.pre o'.pre
  obtain ⟨c', L, hi, hL, kd, hx, -⟩ := l
  obtain rfl := Option.some.inj (hi.symm.trans o.pre)
  have hn := hd_off I hi
  have hn' := hd_off J p.hj
  obtain ⟨q1, q2, q3, q4, -⟩ := p.index I J h2 h3
  have ey := plain_seqs A I J p hL kd h2 h3
  refine ⟨rfl, fun _ _ => rfl, set_like A I J o o' hL kd m m' hs hs' hc hc' e e' ?_⟩
  have xx := q1.mem_iff.2 hx
  have eqv : pos = x ↔ pos' = φ x := by
    rcases hp with ⟨h, h'⟩ | ⟨h, h'⟩
    · rw [h, h']
      exact ⟨fun k => absurd (k ▸ hx) hn, fun k => absurd (k ▸ p.mem hx) hn'⟩
    · rw [h']
      exact ⟨fun k => by rw [k], fun k => A.inj _ (p.cons _ h) _ (p.cons x hx) k⟩
  rcases b with ⟨b1, b2⟩ | ⟨b1, u, t, b2, b3, b4⟩
  · rcases b' with ⟨b1', b2'⟩ | ⟨b1', -⟩
    · rw [b2', b2, ey]
    · exact absurd (eqv.1 b1) b1'
  · rcases b' with ⟨b1', b2'⟩ | ⟨b1', u', t', b2', b3', b4'⟩
    · exact absurd (eqv.2 b1') b1
    · have er : ys.erase (φ x) = (xs.erase x).map φ := by rw [ey]; exact map_erase_nodup (ey ▸ q4) xx
      have sub : ∀ z ∈ t, z ∈ c'.elems := fun z hz => q1.mem_iff.1 (List.erase_subset (a := x) (by rw [b2]; exact List.mem_append_right _ hz))
      have at' := pos_map (p := pos) hn sub hp b4.symm
      have nd : (d.hd :: (u' ++ t')).Nodup := by
        rw [← b2', List.nodup_cons]
        exact ⟨fun h => hn' (q2.mem_iff.1 (List.mem_of_mem_erase h)), q4.erase _⟩
      obtain ⟨z1, z2⟩ := at_unique (a' := u.map φ) (b' := t.map φ) nd (by rw [← b2', er, b2, List.map_append]) (by rw [b4']; exact at')
      rw [b3', b3, z1, z2]
      simp

theorem filter_notin {φ : Id → Id} {vs : List Id} : ∀ {xs : List Id}, (∀ z ∈ xs, ∀ y ∈ vs, φ z = φ y → z = y) → (xs.map φ).filter (· ∉ vs.map φ) = (xs.filter (· ∉ vs)).map φ
  | [], _ => rfl
  | a :: xs, h => by
    have ih := filter_notin (vs := vs) (xs := xs) fun z hz => h z (List.mem_cons_of_mem _ hz)
    have : φ a ∈ vs.map φ ↔ a ∈ vs := ⟨fun k => by
      obtain ⟨b, hb, e⟩ := List.mem_map.1 k
      rw [h a List.mem_cons_self b hb e.symm]; exact hb, List.mem_map_of_mem⟩
    by_cases q : a ∈ vs
    · rw [List.map_cons, List.filter_cons_of_neg (by simpa using this.2 q), List.filter_cons_of_neg (by simpa using q), ih]
    · rw [List.map_cons, List.filter_cons_of_pos (by simpa only [decide_eq_true_eq] using mt this.1 q), List.filter_cons_of_pos (by simpa using q), ih, List.map_cons]

theorem does_map {S : Spec V} {val val' : Id → V} {a a' : Rearr V} {xs xs1 ys ys1 : List Id} (hn : c.hd ∉ c.elems) (hn' : d.hd ∉ d.elems) (nd' : ys.Nodup) (hx : xs.Perm c.elems)
    (hy : ys.Perm d.elems) (ey : ys = xs.map φ) (inj : ∀ y ∈ xs, ∀ z ∈ xs, φ y = φ z → y = z) (ok : a.Ok c.hd xs S) (h : a.Alike φ c d a') (b : a.Does c.hd val S xs xs1)
    (b' : a'.Does d.hd val' S ys ys1) : ys1 = xs1.map φ := by
  have hdy : d.hd ∉ ys := fun k => hn' (hy.mem_iff.1 k)
  have hxm : ∀ z ∈ xs, z ∈ c.elems := fun z hz => hx.mem_iff.1 hz
  cases a <;> cases a' <;> try exact h.elim
  · obtain ⟨h1, h2, h3⟩ := h
    obtain ⟨u, blk, t, s, t2, e1, e2, at1, at2, at3, rfl⟩ := b
    obtain ⟨u', blk', t', s', t2', e1', e2', at1', at2', at3', rfl⟩ := b'
    have sub1 : ∀ z ∈ blk ++ t, z ∈ c.elems := fun z hz => hxm z (by rw [e1, List.append_assoc]; exact List.mem_append_right _ hz)
    have sub2 : ∀ z ∈ t, z ∈ c.elems := fun z hz => sub1 z (List.mem_append_right _ hz)
    have sub3 : ∀ z ∈ t2, z ∈ c.elems := fun z hz => by
      have : z ∈ u ++ t := by rw [e2]; exact List.mem_append_right _ hz
      refine hxm z ?_
      rw [e1]
      rcases List.mem_append.1 this with h | h
      · exact List.mem_append_left _ (List.mem_append_left _ h)
      · exact List.mem_append_right _ h
    have k1 := pos_map hn sub1 h2 at2
    have k2 := pos_map hn sub2 h3 at3
    have k3 := pos_map hn sub3 h1 at1
    have E : u' ++ (blk' ++ t') = u.map φ ++ (blk ++ t).map φ := by rw [← List.append_assoc, ← e1', ey, e1]; simp
    have n1 : (d.hd :: (u' ++ (blk' ++ t'))).Nodup := by rw [← List.append_assoc, ← e1', List.nodup_cons]; exact ⟨hdy, nd'⟩
    obtain ⟨z1, z2⟩ := at_unique n1 E (at2'.symm.trans k1)
    have n2 : (d.hd :: (blk' ++ t')).Nodup := by
      rw [List.nodup_cons] at n1 ⊢
      exact ⟨fun k => n1.1 (List.mem_append_right _ k), (List.nodup_append.1 n1.2).2.1⟩
    obtain ⟨z3, z4⟩ := at_unique n2 (by rw [z2, List.map_append]) (at3'.symm.trans k2)
    have n3 : (d.hd :: (s' ++ t2')).Nodup := by
      rw [← e2']
      refine List.Nodup.sublist ?_ n1
      exact List.Sublist.cons_cons _ ((List.Sublist.refl _).append (List.sublist_append_right _ _))
    obtain ⟨z5, z6⟩ := at_unique n3 (a' := s.map φ) (b' := t2.map φ) (by rw [← e2', z1, z4, ← List.map_append, e2, List.map_append]) (at1'.symm.trans k3)
    rw [z5, z6, z3]
    simp
  · have b : xs1 = xs.reverse := b
    have b' : ys1 = ys.reverse := b'
    rw [b, b', ey, List.map_reverse]
  · have b : xs1 = _ := b
    have b' : ys1 = _ := b'
    rw [b, b']; exact h
  · obtain ⟨h1, h2⟩ := h
    obtain ⟨s, t, e, at1, rfl⟩ := b
    obtain ⟨s', t', e', at1', rfl⟩ := b'
    have k1 := pos_map hn (fun z hz => hxm z (by rw [e]; exact List.mem_append_right _ hz)) h1 at1
    obtain ⟨z1, z2⟩ := at_unique (by rw [← e', List.nodup_cons]; exact ⟨hdy, nd'⟩) (a' := s.map φ) (b' := t.map φ) (by rw [← e', ey, e, List.map_append]) (at1'.symm.trans k1)
    have ok := ok.2.2.2
    rw [h2, z1, z2, filter_notin fun z hz y hy => inj z (by rw [e]; exact List.mem_append_left _ hz) y (ok y hy),
      filter_notin fun z hz y hy => inj z (by rw [e]; exact List.mem_append_right _ hz) y (ok y hy)]
    simp

theorem twin_rearrange {a a' : Rearr V} (A : w.Alike g φ v) (I : Inv w) (J : Inv v) (ha : Both w v i (fun c d => a.Alike φ c d a')) (l : w.Legal (.rearrange i k a))
    (l' : v.Legal (.rearrange i k a'))
    (s : w.step (.rearrange i k a) = .ok (w1, r)) (s' : v.step (.rearrange i k a') = .ok (v1, r')) : Outcome g φ w1 v1 r r' := by
  obtain ⟨w2, c, c1, S, xs, xs1, o, m, hs, hc, hS, h2, e, pm, -, b⟩ := eff_rearrange I l
  obtain ⟨v2, d, d1, S', ys, ys1, o', m', hs', hc', hS', h3, e', pm', -, b'⟩ := eff_rearrange J l'
  rcases b with ⟨q, b⟩ | ⟨q, -⟩ <;> rw [q] at s <;> cases s
  rcases b' with ⟨q', b'⟩ | ⟨q', -⟩ <;> rw [q'] at s' <;> cases s'
  have p := A.pair' I J o.pre o'.pre
  have ha := ha c d o.pre o'.pre
  obtain ⟨c', L, xs', hi, hL, kd, hxs, ok⟩ := l
  obtain rfl := Option.some.inj (hi.symm.trans o.pre)
  obtain rfl := Option.some.inj (hxs.symm.trans h2)
  have eS : S = L.spec := by
    rw [Container.asked, List.getElem?_map, hL] at hS
    exact (Option.some.inj hS).symm
  rw [p.like.asked, hS] at hS'
  cases hS'
  obtain ⟨q1, q2, q3, q4, -⟩ := p.index I J h2 h3
  refine ⟨rfl, fun _ h => (nil_pos I (by rw [m] at h; exact h)).elim, set_like A I J o o' hL kd m m' hs hs' hc hc' e e' ?_⟩
  have mc : ∀ z ∈ xs', z ∈ w.m.cons := fun z hz => p.cons z (q1.mem_iff.1 hz)
  exact does_map (hd_off I hi) (hd_off J p.hj) q4 q1 q2 (plain_seqs A I J p hL kd h2 h3) (fun y hy z hz => A.inj y (mc y hy) z (mc z hz)) (eS ▸ ok) ha b b'

/-! Tuning -/

theorem unchanged_refl (hi : w.cs[i]? = some c) : Unchanged w w i :=
  ⟨⟨rfl, rfl, fun _ _ => rfl, rfl⟩, c, c, ⟨hi, (set_same hi).symm, rfl, rfl⟩, rfl, each_intro seq_len seq_len fun l S a b _ h1 h2 => by
    cases h1.symm.trans h2; exact same_refl ..⟩

theorem tune_unchanged {o : Op V} (I : Inv w) (t : Tunes o) (l : w.Legal o) (s : w.step o = .ok (w1, r) ∨ w.step o = .threw (w1, r)) : ∃ i, Unchanged w w1 i := by
  have key : ∀ {i k : Nat} {a : Rearr V}, w.Legal (.rearrange i k a) → (w.step (.rearrange i k a) = .ok (w1, r) ∨ w.step (.rearrange i k a) = .threw (w1, r)) →
      (∀ hd S xs xs', a.Does hd w.m.val S xs xs' → xs' = xs) → (∀ hd S xs xs', a.Fails hd w.m.val S xs xs' → xs' = xs) → Unchanged w w1 i := by
    intro i k a l s h1 h2
    obtain ⟨w2, c, c1, S, xs, xs1, o, m, hs, hc, hS, hx, e, pm, -, b⟩ := eff_rearrange I l
    have : xs1 = xs := by
      rcases b with ⟨-, b⟩ | ⟨-, b⟩
      · exact h1 _ _ _ _ b
      · exact h2 _ _ _ _ b
    have ew : w2 = w1 := by
      rcases b with ⟨q, -⟩ | ⟨q, -⟩ <;> rcases s with s | s <;> rw [q] at s <;> cases s <;> rfl
    subst ew this
    refine ⟨⟨by rw [m], by rw [m], fun _ _ => by rw [m], hs⟩, c, c1, o, hc, each_intro seq_len (by rw [seq_len, o.asked]) fun l S a b _ h1 h2 => ?_⟩
    rw [e, set_same hx, h1] at h2
    cases h2
    exact same_refl ..
  cases t with
  | rehash i k n e =>
    obtain ⟨w2, q, -, u⟩ := eff_rehash I l
    have ew : w2 = w1 := by
      rcases q with q | ⟨q, -⟩ <;> rcases s with s | s <;> rw [q] at s <;> cases s <;> rfl
    exact ⟨i, ew ▸ u⟩
  | reserve i k n f junk => exact ⟨i, key l s (fun _ _ _ _ h => h) (fun _ _ _ _ h => h.2)⟩
  | shrink i k f junk => exact ⟨i, key l s (fun _ _ _ _ h => h) (fun _ _ _ _ h => h.2)⟩

theorem tune_left {o : Op V} (A : w.Alike g φ v) (I : Inv w) (J : Inv v) (t : Tunes o) (l : w.Legal o) (s : w.step o = .ok (w1, r) ∨ w.step o = .threw (w1, r)) :
    w1.Alike g φ v := by
  obtain ⟨i, u⟩ := tune_unchanged I t l s
  obtain ⟨-, c, c1, o, -⟩ := id u
  obtain ⟨d, p⟩ := A.pair I J o.pre
  exact unchanged_like A I J (fun _ _ => rfl) u (unchanged_refl p.hj)

theorem tune_right {o : Op V} (A : w.Alike g φ v) (I : Inv w) (J : Inv v) (t : Tunes o) (l : v.Legal o) (s : v.step o = .ok (v1, r) ∨ v.step o = .threw (v1, r)) :
    w.Alike g φ v1 := by
  obtain ⟨i, u⟩ := tune_unchanged J t l s
  obtain ⟨-, d, d1, o, -⟩ := id u
  have hl : i < w.cs.length := by rw [← A.len]; exact (List.getElem?_eq_some_iff.1 o.pre).1
  exact unchanged_like A I J (fun _ _ => rfl) (unchanged_refl (List.getElem?_eq_getElem hl)) u

/-! All operations -/

theorem Match.outcome {o o' : Op V} (M : Match g φ w v ψ o o') (A : w.Alike g φ v) (rw' : Reach w) (rv : Reach v) (l : w.Legal o) (l' : v.Legal o')
    (s : w.step o = .ok (w1, r)) (s' : v.step o' = .ok (v1, r')) : Outcome g ψ w1 v1 r r' := by
  have I := rw'.inv
  have J := rv.inv
  cases M with
  | new _ _ _ _ _ _ h => exact twin_new A rw' rv h l l' s s'
  | insert _ _ _ _ _ _ _ _ _ _ h => exact twin_insert (em := false) A I J h l l' s s'
  | emplace _ _ _ _ _ _ _ _ _ _ h => exact twin_insert (em := true) A I J h l l' s s'
  | extract => exact twin_extract A I J l l' s s'
  | insertNh _ _ _ _ _ _ h => exact twin_insertNh A I J h l l' s s'
  | newHandle => exact twin_newHandle A I s s'
  | dropHandle => exact twin_dropHandle A I J s s'
  | moveHandle => exact twin_moveHandle A I J s s'
  | swapHandles => exact twin_swapHandles A I s s'
  | erase => exact twin_erase A I J l l' s s'
  | clear => exact twin_clear A I J l l' s s'
  | destroy => exact twin_destroy A I J l l' s s'
  | replace _ _ _ _ _ _ _ h => exact twin_replace A I J h l l' s s'
  | modify _ _ _ _ _ h => exact twin_modify A I J h l l' s s'
  | modifyRb _ _ _ _ _ _ _ _ h h' => exact twin_modifyRb A I J h h' l l' s s'
  | transfer => exact twin_transfer A I J l l' s s'
  | swap => exact twin_swap A I J l l' s s'
  | copy _ _ _ _ _ _ _ _ _ _ _ _ h h' => exact twin_copy A I J h h' l l' s s'
  | newLike => exact twin_newLike A I J l l' s s'
  | swapElements => exact twin_swapElements A I J l l' s s'
  | relocate _ _ _ _ _ h => exact twin_relocate A I J h l l' s s'
  | rearrange _ _ _ _ h => exact twin_rearrange A I J h l l' s s'

theorem Twins.spec (t : Twins g φ w v) : Reach w ∧ Reach v ∧ w.Alike g φ v := by
  induction t with
  | init φ val val' =>
    exact ⟨.init val, .init val', (fun _ h => nomatch h), (fun _ h => nomatch h), (fun _ h => nomatch h), rfl, rfl, (fun i c d h => by simp at h)⟩
  | step _ M l l' s s' ih =>
    exact ⟨.step ih.1 l (Or.inl s), .step ih.2.1 l' (Or.inl s'), (M.outcome ih.2.2 ih.1 ih.2.1 l l' s s').like⟩
  | left _ t l s ih => exact ⟨.step ih.1 l s, ih.2.1, tune_left ih.2.2 ih.1.inv ih.2.1.inv t l s⟩
  | right _ t l s ih => exact ⟨ih.1, .step ih.2.1 l s, tune_right ih.2.2 ih.1.inv ih.2.1.inv t l s⟩

end MI.Cont
