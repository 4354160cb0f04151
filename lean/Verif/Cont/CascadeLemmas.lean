import Verif.Cont.Cascade
import Verif.Cont.CascadeSpec
import Verif.Cont.LayerLemmas
/-!
What the chains of `insert_`, `extract_`, `modify_`, `modify_rollback_`, `check_rollback_` and `replace_` do.
-/
set_option linter.unusedVariables false
namespace MI.Cont
open MI
variable {V : Type}

def specs (Ls : List (Layer V)) : List (Spec V) := Ls.map Layer.spec

@[simp] theorem specs_nil : specs ([] : List (Layer V)) = [] := rfl
@[simp] theorem specs_cons (L : Layer V) (Ls : List (Layer V)) : specs (L :: Ls) = L.spec :: specs Ls := rfl

theorem OkAll.head {L : Layer V} {Ls : List (Layer V)} (h : OkAll (specs (L :: Ls))) : L.spec.Ok := h _ (by simp)
theorem OkAll.tail {L : Layer V} {Ls : List (Layer V)} (h : OkAll (specs (L :: Ls))) : OkAll (specs Ls) := fun S hS => h S (by simp [hS])

theorem Clear.head {p : List Id} {L : Layer V} {Ls : List (Layer V)} (h : Clear p (L :: Ls)) : ∀ z ∈ p, L.Avoids z := fun z hz => h z hz L (by simp)
theorem Clear.tail {p : List Id} {L : Layer V} {Ls : List (Layer V)} (h : Clear p (L :: Ls)) : Clear p Ls := fun z hz M hM => h z hz M (by simp [hM])
theorem Clear.cons {p : List Id} {L : Layer V} {Ls : List (Layer V)} (h : ∀ z ∈ p, L.Avoids z) (h2 : Clear p Ls) : Clear p (L :: Ls) := by
  intro z hz M hM
  rcases List.mem_cons.1 hM with rfl | hM
  · exact h z hz
  · exact h2 z hz M hM
theorem Clear.nil {p : List Id} : Clear p ([] : List (Layer V)) := fun _ _ _ h => nomatch h

theorem Fit.cases {val : Id → V} {hd : Id} {els : List Id} {L : Layer V} {Ls : List (Layer V)} {xss : List (List Id)}
    (f : Fit val hd els (L :: Ls) xss) : ∃ xs yss, xss = xs :: yss ∧ L.Holds val hd xs ∧ xs.Perm els ∧ Fit val hd els Ls yss := by
  cases xss with
  | nil => nomatch f.holds
  | cons xs yss =>
    obtain ⟨h1, h2⟩ := List.forall₂_cons.1 f.holds
    exact ⟨xs, yss, rfl, h1, f.perm xs (by simp), h2, fun ys hy => f.perm ys (by simp [hy])⟩

theorem Fit.cons {val : Id → V} {hd : Id} {els xs : List Id} {L : Layer V} {Ls : List (Layer V)} {xss : List (List Id)}
    (h : L.Holds val hd xs) (p : xs.Perm els) (f : Fit val hd els Ls xss) : Fit val hd els (L :: Ls) (xs :: xss) := by
  refine ⟨.cons h f.holds, ?_⟩
  intro ys hy
  rcases List.mem_cons.1 hy with rfl | hy
  · exact p
  · exact f.perm ys hy

theorem Fit.nil {val : Id → V} {hd : Id} {els : List Id} : Fit val hd els ([] : List (Layer V)) [] := ⟨.nil, fun _ h => nomatch h⟩

theorem Fit.nil' {val : Id → V} {hd : Id} {els : List Id} {xss : List (List Id)} (f : Fit val hd els ([] : List (Layer V)) xss) : xss = [] := by
  cases f.holds; rfl

theorem Banned.head {S : Spec V} {Ss : List (Spec V)} {val : Id → V} {els xs : List Id} {v : V} (p : xs.Perm els) (b : S.Bans val xs v) :
    Banned (S :: Ss) val els v := by
  obtain ⟨b1, y, hy, b2⟩ := b
  exact ⟨S, by simp, b1, y, p.mem_iff.1 hy, b2⟩

theorem Banned.tail {S : Spec V} {Ss : List (Spec V)} {val : Id → V} {els : List Id} {v : V} (b : Banned Ss val els v) : Banned (S :: Ss) val els v := by
  obtain ⟨T, hT, r⟩ := b
  exact ⟨T, by simp [hT], r⟩

theorem not_banned_cons {S : Spec V} {Ss : List (Spec V)} {val : Id → V} {els xs : List Id} {v : V} (p : xs.Perm els) (b : ¬ S.Bans val xs v)
    (h : ¬ Banned Ss val els v) : ¬ Banned (S :: Ss) val els v := by
  rintro ⟨T, hT, u, y, hy, r⟩
  rcases List.mem_cons.1 hT with rfl | hT
  · exact b ⟨u, y, p.mem_iff.2 hy, r⟩
  · exact h ⟨T, hT, u, y, hy, r⟩

theorem Same.perm {S : Spec V} {val : Id → V} {xs xs' : List Id} (h : S.Same val xs xs') : xs'.Perm xs := by
  cases S with
  | hash c eq hf => exact h.1
  | ord u lt => exact List.Perm.of_eq h
  | seq => exact List.Perm.of_eq h
  | rnd => exact List.Perm.of_eq h

theorem Same.refl {S : Spec V} {val : Id → V} (xs : List Id) : S.Same val xs xs := by
  cases S with
  | hash c eq hf => exact ⟨List.Perm.refl _, fun _ _ => rfl⟩
  | ord u lt => exact rfl
  | seq => exact rfl
  | rnd => exact rfl

theorem each_refl {Ls : List (Layer V)} {val : Id → V} {hd : Id} {els : List Id} {xss : List (List Id)} (f : Fit val hd els Ls xss) :
    Each (fun S => fun xs ys => Spec.Same val xs ys S) (specs Ls) xss xss := by
  induction Ls generalizing xss with
  | nil => obtain rfl := f.nil'; trivial
  | cons L Ls ih =>
    obtain ⟨xs, yss, rfl, -, -, f2⟩ := f.cases
    exact ⟨Same.refl xs, ih f2⟩

theorem each_mono {R T : Spec V → List Id → List Id → Prop} (h : ∀ S xs ys, R S xs ys → T S xs ys) :
    ∀ {Ss : List (Spec V)} {xss yss : List (List Id)}, Each R Ss xss yss → Each T Ss xss yss
  | [], [], [], _ => trivial
  | S :: Ss, xs :: xss, ys :: yss, r => ⟨h _ _ _ r.1, each_mono h r.2⟩
  | [], [], _ :: _, r => r.elim
  | [], _ :: _, _, r => r.elim
  | _ :: _, [], _, r => r.elim
  | _ :: _, _ :: _, [], r => r.elim

/-! ## Extraction -/

theorem extractC_spec {val val' : Id → V} {hd x : Id} {els : List Id} {n : Nat} (hx : x ∈ els) (hv : ∀ y, y ≠ x → val' y = val y)
    (hn : els.length + 3 ≤ n) : ∀ {Ls : List (Layer V)} {xss : List (List Id)}, Fit val hd els Ls xss →
    ∃ Ls', extractC n hd x Ls = some Ls' ∧ specs Ls' = specs Ls ∧ Fit val' hd (els.erase x) Ls' (xss.map (·.erase x)) ∧
      (∀ p, Clear p Ls → Clear p Ls')
  | [], xss, f => by
    obtain rfl := f.nil'
    exact ⟨[], rfl, rfl, .nil, fun _ h => h⟩
  | L :: Ls, xss, f => by
    obtain ⟨xs, yss, rfl, w, p, f2⟩ := f.cases
    obtain ⟨L', k1, k2, k3, k4, -⟩ := Layer.unlink_spec (n := n) w (p.mem_iff.2 hx) hv (by rw [p.length_eq]; exact hn)
    obtain ⟨Ls', j1, j2, j3, j4⟩ := extractC_spec hx hv hn f2
    exact ⟨L' :: Ls', by simp only [extractC, k1, j1], by simp [k2, j2], .cons k3 (p.erase x) j3,
      fun q hq => .cons (fun z hz => k4 z (hq.head z hz)) (j4 q hq.tail)⟩

/-! ## Insertion -/

section
variable {M : Type} {val : Id → V} {hd x : Id} {els pool : List Id} {n size : Nat} {hint : Option Id} {m0 : M} {base : Out M}

theorem insertC_spec (x0 : x ≠ 0) (hx : x ∉ hd :: els) (hh : ∀ p, hint = some p → p ∈ hd :: els) (hs : size = els.length) (hn : els.length + 3 ≤ n)
    (sub : ∀ z ∈ els, z ∈ pool) (xp : x ∈ pool) (hb : ∃ m, base = .ok m ∨ base = .threw m) :
    ∀ {Ls : List (Layer V)} {xss : List (List Id)} {e : Nat → Env} {xr : Id}, OkAll (specs Ls) → Fit val hd els Ls xss →
      EnvAll hd size pool e Ls → Clear pool Ls → xr ∉ els →
    ∃ Ls' xss', specs Ls' = specs Ls ∧ Clear pool Ls' ∧
      ((∃ m, base = .ok m ∧ insertC n hd val hint size m0 base x e xr Ls = .ok ⟨Ls', m, x, x⟩ ∧ Fit val hd (x :: els) Ls' xss' ∧
          Each (Added val hint x) (specs Ls) xss xss' ∧ ¬ Banned (specs Ls) val els (val x)) ∨
       (∃ y, insertC n hd val hint size m0 base x e xr Ls = .ok ⟨Ls', m0, y, xr⟩ ∧ y ∈ els ∧ Fit val hd els Ls' xss' ∧
          Each (fun S => fun xs ys => Spec.Same val xs ys S) (specs Ls) xss xss' ∧
          ∃ S ∈ specs Ls, S.unique = true ∧ S.equiv (val x) (val y) = true) ∨
       (∃ r, insertC n hd val hint size m0 base x e xr Ls = .threw r ∧ r.ls = Ls' ∧ (r.m = m0 ∨ base = .threw r.m) ∧ Fit val hd els Ls' xss' ∧
          Each (fun S => fun xs ys => Spec.Same val xs ys S) (specs Ls) xss xss' ∧
          ((∃ i, ¬ (e i).Quiet) ∨ base = .threw r.m)))
  | [], xss, e, xr, ok, f, env, av, hr => by
    obtain rfl := f.nil'
    refine ⟨[], [], rfl, av, ?_⟩
    obtain ⟨m, hb | hb⟩ := hb
    · left
      refine ⟨m, hb, by simp only [insertC, hb], .nil, trivial, ?_⟩
      rintro ⟨S, hS, -⟩
      exact nomatch hS
    · right; right
      exact ⟨⟨[], m, 0, xr⟩, by simp only [insertC, hb], rfl, Or.inr hb, .nil, trivial, Or.inr hb⟩
  | L :: Ls, xss, e, xr, ok, f, env, av, hr => by
    obtain ⟨xs, yss, rfl, w, p, f2⟩ := f.cases
    obtain ⟨L1, k1, k2, k3, xs1, w1, s1⟩ := Layer.reserve_spec ok.head w (by rw [hs, p.length_eq]) env.1
      (fun z hz => sub z (p.mem_iff.1 hz)) av.head
    have p1 : xs1.Perm els := (Same.perm s1).trans p
    rcases k1 with ⟨k1, rdy⟩ | ⟨k1, q⟩
    swap
    · refine ⟨L1 :: Ls, xs1 :: yss, by simp [k2], .cons k3 av.tail, Or.inr (Or.inr ⟨⟨L1 :: Ls, m0, 0, xr⟩, by simp only [insertC, k1], rfl, Or.inl rfl, .cons w1 p1 f2,
        ⟨s1, each_refl f2⟩, Or.inl ⟨0, ?_⟩⟩)⟩
      rintro ⟨q1, q2, -⟩
      rcases q with q | q
      · simp [q] at q1
      · exact q q2
    have hx1 : x ∉ hd :: xs1 := by
      intro k
      rcases List.mem_cons.1 k with rfl | k
      · exact hx (by simp)
      · exact hx (List.mem_cons_of_mem _ (p1.mem_iff.1 k))
    rcases Layer.point_spec (e := e 0) (n := n) (hint := hint) (k2 ▸ ok.head) w1 x0 hx1 (k3 x xp)
      (fun q hq => by
        rcases List.mem_cons.1 (hh q hq) with rfl | k
        · simp
        · exact List.mem_cons_of_mem _ (p1.mem_iff.2 k))
      (by rw [p1.length_eq]; exact hn) with ⟨j1, j2⟩ | ⟨y, hy, j1, j2, j3⟩ | ⟨pt, u, v, j1, j2, j3, j4, j5⟩
    · refine ⟨L1 :: Ls, xs1 :: yss, by simp [k2], .cons k3 av.tail, Or.inr (Or.inr ⟨⟨L1 :: Ls, m0, 0, xr⟩, by simp only [insertC, k1, j1], rfl, Or.inl rfl, .cons w1 p1 f2,
        ⟨s1, each_refl f2⟩, Or.inl ⟨0, ?_⟩⟩)⟩
      rintro ⟨-, -, q3, -⟩
      simp [j2] at q3
    · refine ⟨L1 :: Ls, xs1 :: yss, by simp [k2], .cons k3 av.tail, Or.inr (Or.inl ⟨y, by simp only [insertC, k1, j1], p1.mem_iff.1 hy, .cons w1 p1 f2,
        ⟨s1, each_refl f2⟩, L.spec, by simp, by rw [← k2]; exact j2, by rw [← k2]; exact j3⟩)⟩
    · obtain ⟨L2, l1, l2, l3, l4⟩ := j5 rdy
      obtain ⟨Ls', xss', i1, i2, i3⟩ := insertC_spec x0 hx hh hs hn sub xp hb (e := tl e) (xr := xr) ok.tail f2 env.2 av.tail hr
      rcases i3 with ⟨m, i3, i4, i5, i6, i7⟩ | ⟨y, i3, hy, i4, i5, T, hT, i6⟩ | ⟨r, i3, i4, i5, i6, i7, i8⟩
      · refine ⟨L2 :: Ls', (u ++ x :: v) :: xss', by simp [l2, k2, i1], .cons (fun z hz => l4 z (k3 z hz)) i2, Or.inl ⟨m, i3, ?_, .cons l3 ?_ i5, ⟨?_, i6⟩, ?_⟩⟩
        · simp only [insertC, k1, j1, i4, l1, if_true]
        · exact List.perm_middle.trans ((j2 ▸ p1).cons x)
        · exact ⟨u, v, rfl, j2 ▸ s1, k2 ▸ j4⟩
        · exact not_banned_cons (xs := xs1) p1 (k2 ▸ j3) i7
      · have : y ≠ xr := fun k => hr (k ▸ hy)
        exact ⟨L1 :: Ls', xs1 :: xss', by simp [k2, i1], .cons k3 i2, Or.inr (Or.inl ⟨y, by simp only [insertC, k1, j1, i3, if_neg this], hy, .cons w1 p1 i4,
          ⟨s1, i5⟩, T, by simp [hT], i6⟩)⟩
      · refine ⟨L1 :: Ls', xs1 :: xss', by simp [k2, i1], .cons k3 i2, Or.inr (Or.inr ⟨{ r with ls := L1 :: r.ls }, by simp only [insertC, k1, j1, i3], by simp [i4], i5,
          .cons w1 p1 i6, ⟨s1, i7⟩, ?_⟩)⟩
        rcases i8 with ⟨i, hi⟩ | hi
        · exact Or.inl ⟨i + 1, hi⟩
        · exact Or.inr hi

end

/-! ## Changes of a value -/

theorem noBans {L : Layer V} {val : Id → V} {hd x : Id} {xs : List Id} (ok : L.spec.Ok) (w : L.Holds val hd xs) (hx : x ∈ xs) :
    ¬ L.spec.Bans val (xs.erase x) (val x) := by
  have g := w.good ok
  have nd := w.xs_nodup
  obtain ⟨u, v, rfl⟩ := List.append_of_mem hx
  rw [erase_split nd]
  rintro ⟨q1, y, hy, q2⟩
  generalize hS : L.spec = S at *
  cases S with
  | seq => exact nomatch q1
  | rnd => exact nomatch q1
  | ord b lt =>
    obtain rfl : b = true := q1
    have := strict_split.1 g
    have q2 : equivOf lt (val x) (val y) = true := q2
    simp only [equivOf, Bool.and_eq_true, Bool.not_eq_true'] at q2
    rcases List.mem_append.1 hy with hy | hy
    · have := this.2.1 y hy
      rw [q2.2] at this
      exact nomatch this
    · have := this.2.2 y hy
      rw [q2.1] at this
      exact nomatch this
  | hash c eq hf =>
    obtain rfl : c = .uniq := by
      cases c
      · rfl
      · exact nomatch q1
    have g : (u ++ x :: v).Pairwise (fun a b => eq (val a) (val b) = false) := g
    have q2 : eq (val x) (val y) = true := q2
    have eh : EqHash eq hf := ok
    rw [List.pairwise_append, List.pairwise_cons] at g
    rcases List.mem_append.1 hy with hy | hy
    · have := g.2.2 y hy x (by simp)
      rw [eh.symm q2] at this
      exact nomatch this
    · have := g.2.1.1 y hy
      rw [q2] at this
      exact nomatch this

theorem moved_keep {L : Layer V} {v0 : V} {val : Id → V} {hd x : Id} {xs : List Id} (ok : L.spec.Ok) (w : L.Holds val hd xs) (hx : x ∈ xs) :
    Moved v0 val x L.spec xs xs := by
  have nd := w.xs_nodup
  have g := w.good ok
  obtain ⟨u, v, rfl⟩ := List.append_of_mem hx
  refine ⟨u, v, erase_split nd, rfl, ?_⟩
  cases h : L.spec with
  | ord b lt => rw [h] at g; exact ⟨fun _ => rfl, fun k => absurd g k⟩
  | hash c eq hf => exact fun _ => rfl
  | seq => rfl
  | rnd => rfl

theorem keyed_ready {L : Layer V} (h : L.keyed = true) : L.Ready := by
  cases L <;> first | trivial | cases h

theorem moved_point {L : Layer V} {v0 : V} {val : Id → V} {hd x : Id} {xs u v : List Id} (kd : L.keyed = true) (e : xs.erase x = u ++ v)
    (wh : L.spec.Where val none x u v) (h : ∀ b lt, L.spec = .ord b lt → ¬ L.spec.Good val xs)
    (h2 : ∀ c eq hf, L.spec = .hash c eq hf → eq (val x) v0 = true → False) : Moved v0 val x L.spec xs (u ++ x :: v) := by
  refine ⟨u, v, e, rfl, ?_⟩
  cases L with
  | ord b lt t => exact ⟨fun k => absurd k (h b lt rfl), fun _ => wh⟩
  | hash c eq hf => exact fun k => (h2 c eq hf rfl k).elim
  | seq => exact nomatch kd
  | rnd => exact nomatch kd

theorem holds_ord {L : Layer V} {val val' : Id → V} {hd : Id} {xs : List Id} (w : L.Holds val hd xs) :
    ∀ b lt, L.spec = .ord b lt → ¬ L.Holds val' hd xs → ¬ L.spec.Good val' xs := by
  intro b lt h k g
  cases L with
  | ord b' lt' t => exact k ⟨w.1, g⟩
  | hash => exact nomatch h
  | seq => exact nomatch h
  | rnd => exact nomatch h

theorem holds_hash {L : Layer V} {val val' : Id → V} {hd x : Id} {xs : List Id} (ok : L.spec.Ok) (w : L.Holds val hd xs) (hv : ∀ y, y ≠ x → val' y = val y)
    {c : Hash.Cat} {eq : V → V → Bool} {hf : V → Nat} (hL : L.spec = .hash c eq hf) (q : eq (val' x) (val x) = true) : L.Holds val' hd xs := by
  cases L with
  | seq h => exact nomatch hL
  | rnd s => exact nomatch hL
  | ord u lt h => exact nomatch hL
  | hash c eq hf pol ml h a =>
    cases hL
    have eh : EqHash eq hf := ok
    have hvx : ∀ y, eq (val' y) (val y) = true := by
      intro y
      by_cases h : y = x
      · rw [h]; exact q
      · rw [hv y h]; exact eh.refl _
    refine ⟨w.1, Hash.Holds.congr w.2 (fun y hy => eh.cons (hvx y)) (fun y hy z hz => ?_)⟩
    show eq (val' y) (val' z) = eq (val y) (val z)
    have h1 := hvx y
    have h2 := hvx z
    apply Bool.eq_iff_iff.2
    constructor
    · intro k
      exact eh.trans (eh.symm h1) (eh.trans k h2)
    · intro k
      exact eh.trans h1 (eh.trans k (eh.symm h2))

theorem unlink_keyed {L L' : Layer V} {n : Nat} {hd x : Id} (h : L.unlink n hd x = some L') : L'.keyed = L.keyed := by
  cases L with
  | ord b lt t =>
    simp only [Layer.unlink, Option.map_eq_some_iff] at h
    obtain ⟨a, -, rfl⟩ := h
    rfl
  | hash => cases h; rfl
  | seq => cases h; rfl
  | rnd => cases h; rfl

theorem spec_keyed {L L' : Layer V} (h : L'.spec = L.spec) : L'.keyed = L.keyed := by
  cases L <;> cases L' <;> simp_all [Layer.spec, Layer.keyed]

section
variable {val val' : Id → V} {hd x : Id} {els : List Id} {n : Nat}

theorem modifyC_spec (x0 : x ≠ 0) (hx : x ∈ els) (hv : ∀ y, y ≠ x → val' y = val y) (hn : els.length + 3 ≤ n) :
    ∀ {Ls : List (Layer V)} {xss : List (List Id)} {e : Nat → Env}, OkAll (specs Ls) → Fit val hd els Ls xss → Clear [x] Ls →
    ∃ Ls', specs Ls' = specs Ls ∧ (∀ p, Clear p Ls → Clear p Ls') ∧
      ((∃ xss', modifyC n hd val' x e Ls = .ok (Ls', true) ∧ Fit val' hd els Ls' xss' ∧ Each (Moved (val x) val' x) (specs Ls) xss xss' ∧
          ¬ Banned (specs Ls) val' (els.erase x) (val' x)) ∨
       (modifyC n hd val' x e Ls = .ok (Ls', false) ∧ Fit val' hd (els.erase x) Ls' (xss.map (·.erase x)) ∧
          Banned (specs Ls) val' (els.erase x) (val' x)) ∨
       (modifyC n hd val' x e Ls = .threw (Ls', false) ∧ Fit val' hd (els.erase x) Ls' (xss.map (·.erase x)) ∧ ∃ i, ¬ (e i).Quiet))
  | [], xss, e, ok, f, av => by
    obtain rfl := f.nil'
    refine ⟨[], rfl, fun _ h => h, Or.inl ⟨[], rfl, .nil, trivial, ?_⟩⟩
    rintro ⟨S, hS, -⟩
    exact nomatch hS
  | L :: Ls, xss, e, ok, f, av => by
    have f0 := f
    obtain ⟨xs, yss, rfl, w, p, f2⟩ := f.cases
    have hxs : x ∈ xs := p.mem_iff.2 hx
    have hl : xs.length + 3 ≤ n := by rw [p.length_eq]; exact hn
    obtain ⟨Lt, t1, t2, t3, t4⟩ := extractC_spec (n := n) hx hv hn f2
    rcases Layer.inPlace_spec (e := e 0) (n := n) ok.head w hxs hv hl with ⟨k1, k2, k3⟩ | ⟨b, k1, k2, k3⟩
    · obtain ⟨Ls', j1, j2, j3, j4⟩ := extractC_spec (n := n) hx hv hn f0
      refine ⟨Ls', j2, j4, Or.inr (Or.inr ⟨by simp only [modifyC, k1, j1], j3, 0, ?_⟩)⟩
      rintro ⟨-, -, -, q⟩
      simp [k2] at q
    -- second half: `L1` holds `x` at its place
    have second : ∀ (L1 : Layer V) (xs1 : List Id), L1.spec = L.spec → L1.Holds val' hd xs1 → xs1.Perm els → xs1.erase x = xs.erase x →
        (∀ z, L.Avoids z → L1.Avoids z) → Moved (val x) val' x L.spec xs xs1 →
        modifyC n hd val' x e (L :: Ls) = (match modifyC n hd val' x (tl e) Ls with
          | .ub => .ub
          | .hang => .hang
          | .ok (Ls, true) => .ok (L1 :: Ls, true)
          | .ok (Ls, false) =>
            match L1.unlink n hd x with
            | none => .hang
            | some L => .ok (L :: Ls, false)
          | .threw (Ls, _) =>
            match L1.unlink n hd x with
            | none => .hang
            | some L => .threw (L :: Ls, false)) →
        ∃ Ls', specs Ls' = specs (L :: Ls) ∧ (∀ p, Clear p (L :: Ls) → Clear p Ls') ∧
          ((∃ xss', modifyC n hd val' x e (L :: Ls) = .ok (Ls', true) ∧ Fit val' hd els Ls' xss' ∧ Each (Moved (val x) val' x) (specs (L :: Ls)) (xs :: yss) xss' ∧
              ¬ Banned (specs (L :: Ls)) val' (els.erase x) (val' x)) ∨
           (modifyC n hd val' x e (L :: Ls) = .ok (Ls', false) ∧ Fit val' hd (els.erase x) Ls' ((xs :: yss).map (·.erase x)) ∧
              Banned (specs (L :: Ls)) val' (els.erase x) (val' x)) ∨
           (modifyC n hd val' x e (L :: Ls) = .threw (Ls', false) ∧ Fit val' hd (els.erase x) Ls' ((xs :: yss).map (·.erase x)) ∧ ∃ i, ¬ (e i).Quiet)) := by
      intro L1 xs1 h1 h2 h3 h4 h5 h6 h7
      obtain ⟨L2, u1, u2, u3, u4, -⟩ := Layer.unlink_spec (n := n) (val' := val') h2 (h3.mem_iff.2 hx) (fun _ _ => rfl) (by rw [h3.length_eq]; exact hn)
      rw [h4] at u3
      obtain ⟨Ls', i1, i2, i3⟩ := modifyC_spec x0 hx hv hn (e := tl e) ok.tail f2 av.tail
      rcases i3 with ⟨xss', i3, i4, i5, i6⟩ | ⟨i3, i4, i5⟩ | ⟨i3, i4, i, i5⟩
      · refine ⟨L1 :: Ls', by simp [h1, i1], fun q hq => .cons (fun z hz => h5 z (hq.head z hz)) (i2 q hq.tail), Or.inl ⟨xs1 :: xss', ?_, .cons h2 h3 i4, ⟨h6, i5⟩, ?_⟩⟩
        · rw [h7, i3]
        · have := noBans (h1 ▸ ok.head) h2 (h3.mem_iff.2 hx)
          exact not_banned_cons (h3.erase x) (h1 ▸ this) i6
      · refine ⟨L2 :: Ls', by simp [h1, u2, i1], fun q hq => .cons (fun z hz => u4 z (h5 z (hq.head z hz))) (i2 q hq.tail), Or.inr (Or.inl ⟨?_, .cons u3 (p.erase x) i4, i5.tail⟩)⟩
        rw [h7, i3, u1]
      · refine ⟨L2 :: Ls', by simp [h1, u2, i1], fun q hq => .cons (fun z hz => u4 z (h5 z (hq.head z hz))) (i2 q hq.tail), Or.inr (Or.inr ⟨?_, .cons u3 (p.erase x) i4, i + 1, i5⟩)⟩
        rw [h7, i3, u1]
    cases b with
    | true =>
      refine second L xs rfl (k2.1 rfl) p rfl (fun _ h => h) (moved_keep ok.head (k2.1 rfl) hxs) ?_
      simp only [modifyC, k1, if_true]
      rfl
    | false =>
      have kd : L.keyed = true := by
        cases h : L.keyed
        · exact nomatch k3 h
        · rfl
      obtain ⟨L1, u1, u2, u3, u4, u5⟩ := Layer.unlink_spec (n := n) (val' := val') w hxs hv hl
      have pe := p.erase x
      have hx1 : x ∉ hd :: xs.erase x := by
        intro k
        rcases List.mem_cons.1 k with rfl | k
        · exact (List.nodup_cons.1 w.nodup).1 hxs
        · exact (w.xs_nodup.mem_erase_iff.1 k).1 rfl
      rcases Layer.point_spec (e := e 0) (n := n) (hint := none) (u2 ▸ ok.head) u3 x0 hx1 (u4 x (av.head x (by simp))) (fun _ h => nomatch h)
          (by have := List.length_erase_le (a := x) (l := xs); omega) with ⟨j1, j2⟩ | ⟨y, hy, j1, j2, j3⟩ | ⟨pt, u, v, j1, j2, j3, j4, j5⟩
      · refine ⟨L1 :: Lt, by simp [u2, t2], fun q hq => .cons (fun z hz => u4 z (hq.head z hz)) (t4 q hq.tail), Or.inr (Or.inr ⟨?_, .cons u3 pe t3, 0, ?_⟩)⟩
        · simp only [modifyC, k1, u1, Option.map_some, j1, t1, Bool.false_eq_true, if_false]
        · rintro ⟨-, -, q, -⟩
          simp [j2] at q
      · refine ⟨L1 :: Lt, by simp [u2, t2], fun q hq => .cons (fun z hz => u4 z (hq.head z hz)) (t4 q hq.tail), Or.inr (Or.inl ⟨?_, .cons u3 pe t3, ?_⟩)⟩
        · simp only [modifyC, k1, u1, Option.map_some, j1, t1, Bool.false_eq_true, if_false]
        · exact Banned.head pe ⟨u2 ▸ j2, y, hy, u2 ▸ j3⟩
      · have rdy : L1.Ready := keyed_ready ((spec_keyed u2).trans kd)
        obtain ⟨L2, l1, l2, l3, l4⟩ := j5 rdy
        have pp : (u ++ x :: v).Perm els := by
          refine List.perm_middle.trans ?_
          rw [← j2]
          exact (List.perm_cons_erase hxs).symm.trans p
        refine second L2 (u ++ x :: v) (l2.trans u2) l3 pp ?_ (fun z h => l4 z (u4 z h)) ?_ ?_
        · rw [erase_split l3.xs_nodup, j2]
        · exact moved_point kd j2 (u2 ▸ j4) (fun b lt h => holds_ord w b lt h (fun k => nomatch k2.2 k))
            (fun c eq hf h q => nomatch k2.2 (holds_hash ok.head w hv h q)) (hd := hd)
        · simp only [modifyC, k1, u1, Option.map_some, j1, l1, Bool.false_eq_true, if_false]
          rfl

end
end MI.Cont
