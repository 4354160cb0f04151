import Verif.Cont.Copy
import Verif.Cont.State3
import Verif.Ser.MatcherLemmas
import Verif.Seq.CopyLemmas
import Verif.Rnd.CopyLemmas
import Verif.Ord.CopyLemmas
import Verif.Hash.CopyLemmas
import Verif.Hash.Sizes
/-! Copying a container. -/
set_option linter.unusedVariables false
namespace MI.Cont
open MI
variable {V : Type}

/-! ## The copy map -/

section map
variable {hd hd' : Id} {xs ns : List Id}

/-- The clone of an element, the new header for the header. -/
def cloneOf (hd hd' : Id) (xs ns : List Id) (x : Id) : Id := if x = hd then hd' else ns.getD (xs.idxOf x) 0

theorem cloneOf_hd : cloneOf hd hd' xs ns hd = hd' := if_pos rfl

theorem cloneOf_zero (h0 : hd ≠ 0) (x0 : 0 ∉ xs) (hl : xs.length = ns.length) : cloneOf hd hd' xs ns 0 = 0 := by
  unfold cloneOf
  rw [if_neg (Ne.symm h0), List.idxOf_eq_length x0, hl]
  simp

theorem zip_clone (nd : (hd :: xs).Nodup) (hl : xs.length = ns.length) : xs.zip ns = xs.map fun x => (x, cloneOf hd hd' xs ns x) := by
  apply List.ext_getElem
  · simp [hl]
  · intro i h1 h2
    have hi : i < xs.length := by simpa using h2
    rw [List.getElem_zip, List.getElem_map]
    refine Prod.ext rfl ?_
    have ne : xs[i] ≠ hd := fun k => (List.nodup_cons.1 nd).1 (k ▸ List.getElem_mem hi)
    simp only [cloneOf, if_neg ne, (List.nodup_cons.1 nd).2.idxOf_getElem i hi]
    rw [List.getD_eq_getElem?_getD, List.getElem?_eq_getElem (by omega)]
    rfl

theorem map_cloneOf (nd : (hd :: xs).Nodup) (hl : xs.length = ns.length) : xs.map (cloneOf hd hd' xs ns) = ns := by
  have := congrArg (List.map Prod.snd) (zip_clone (hd' := hd') nd hl)
  rw [List.map_snd_zip (by omega), List.map_map] at this
  exact this.symm

theorem sort_clone {φ : Id → Id} {n : Nat} (hn : n = xs.length) :
    ∃ l : List Id, l.Perm xs ∧ l.Pairwise (· ≤ ·) ∧ sortEntries n (xs.map fun x => (x, φ x)) = l.map fun x => (x, φ x) := by
  have hs : sortEntries n (xs.map fun x => (x, φ x)) = (xs.map fun x => (x, φ x)).insertionSort (fun a b => a.1 ≤ b.1) := by
    unfold sortEntries
    rw [if_pos (by simp [hn])]
  have pm := List.perm_insertionSort (fun a b : Id × Id => a.1 ≤ b.1) (xs.map fun x => (x, φ x))
  have srt : ((xs.map fun x => (x, φ x)).insertionSort (fun a b : Id × Id => a.1 ≤ b.1)).Pairwise (fun a b => a.1 ≤ b.1) := by
    haveI : Std.Total (fun a b : Id × Id => a.1 ≤ b.1) := ⟨fun a b => Nat.le_total a.1 b.1⟩
    haveI : IsTrans (Id × Id) (fun a b : Id × Id => a.1 ≤ b.1) := ⟨fun a b c h k => Nat.le_trans h k⟩
    exact List.pairwise_insertionSort _ _
  rw [hs]
  generalize (xs.map fun x => (x, φ x)).insertionSort (fun a b : Id × Id => a.1 ≤ b.1) = q at pm srt
  have hq : q = (q.map Prod.fst).map fun x => (x, φ x) := by
    rw [List.map_map]
    conv_lhs => rw [← List.map_id q]
    refine List.map_congr_left fun p hp => ?_
    obtain ⟨x, -, rfl⟩ := List.mem_map.1 (pm.mem_iff.1 hp)
    rfl
  refine ⟨q.map Prod.fst, ?_, ?_, hq⟩
  · have := pm.map Prod.fst
    rw [List.map_map, show (Prod.fst ∘ fun x => (x, φ x)) = (id : Id → Id) from rfl, List.map_id] at this
    exact this
  · rw [List.pairwise_map]
    exact srt

theorem find_clone {φ : Id → Id} {l : List Id} (srt : l.Pairwise (· ≤ ·)) {x : Id} (hx : x ∈ l) (hh : φ hd = hd') :
    (CopyMap.mk (l.map fun x => (x, φ x)) hd hd').find x = some (φ x) := by
  unfold CopyMap.find
  simp only
  split
  · next h => rw [h, hh]
  · obtain ⟨k, hk, e⟩ := List.getElem_of_mem hx
    have len : (l.map fun x => (x, φ x)).length = l.length := by simp
    have get : ∀ j (hj : j < l.length), ((l.map fun x => (x, φ x)).getD j (0, 0)).1 = l[j] := by
      intro j hj
      rw [List.getD_eq_getElem?_getD, List.getElem?_eq_getElem (by simpa using hj)]
      simp
    have le : ∀ i j (hi : i < l.length) (hj : j < l.length), i ≤ j → l[i] ≤ l[j] := by
      intro i j hi hj hij
      rcases Nat.eq_or_lt_of_le hij with rfl | h
      · exact Nat.le_refl _
      · exact List.pairwise_iff_getElem.1 srt i j hi hj h
    obtain ⟨b1, b2, b3⟩ := Ser.lowerBound_all (fun k => decide (((l.map fun x => (x, φ x)).getD k (0, 0)).1 < x)) l.length (by
      intro i j hij hj p
      rw [decide_eq_true_eq, get j hj] at p
      rw [decide_eq_true_eq, get i (by omega)]
      exact Nat.lt_of_le_of_lt (le i j (by omega) hj hij) p)
    rw [len]
    generalize Ser.lowerBound _ l.length 0 l.length = r at b1 b2 b3
    have rk : r ≤ k := by
      by_contra q
      have := b2 k (by omega)
      rw [decide_eq_true_eq, get k hk, e] at this
      exact absurd this (Nat.lt_irrefl _)
    have hr : r < l.length := by omega
    have e2 : l[r] = x := by
      have h1 := b3 r (Nat.le_refl _) hr
      rw [decide_eq_false_iff_not, get r hr] at h1
      have h2 := le r k hr hk rk
      rw [e] at h2
      exact Nat.le_antisymm h2 (Nat.le_of_not_lt h1)
    rw [List.getElem?_map, List.getElem?_eq_getElem hr, e2]
    rfl

end map

/-! ## Making the clones -/

theorem cloneAll_spec {f : Nat → Fault} : ∀ {xs ns : List Id} {k : Nat} {m : Mem V} {es : List (Id × Id)}, xs.length = ns.length → ns.Nodup →
    (∀ x ∈ xs, x ∉ ns) →
    (∃ m', cloneAll f k m xs ns es = .ok (m', es ++ xs.zip ns) ∧ m'.alloc = ns.reverse ++ m.alloc ∧ m'.cons = ns.reverse ++ m.cons ∧
      (∀ z, z ∉ ns → m'.val z = m.val z) ∧ (∀ p ∈ xs.zip ns, m'.val p.2 = m.val p.1) ∧
      ∀ j, j < xs.length → (f (k + j)).alloc = false ∧ (f (k + j)).construct = false) ∨
    (∃ m' j, j < xs.length ∧ cloneAll f k m xs ns es = .threw (m', es ++ (xs.zip ns).take j) ∧ m'.alloc = (ns.take j).reverse ++ m.alloc ∧
      m'.cons = (ns.take j).reverse ++ m.cons ∧ (∀ z, z ∉ ns → m'.val z = m.val z) ∧ ((f (k + j)).alloc = true ∨ (f (k + j)).construct = true))
  | [], [], k, m, es, _, _, _ => Or.inl ⟨m, by simp [cloneAll], rfl, rfl, fun _ _ => rfl, by simp, by simp⟩
  | [], _ :: _, _, _, _, h, _, _ => by simp at h
  | _ :: _, [], _, _, _, h, _, _ => by simp at h
  | x :: xs, n :: ns, k, m, es, hl, nd, dj => by
    rw [List.nodup_cons] at nd
    by_cases hf : (f k).alloc = true ∨ (f k).construct = true
    · right
      refine ⟨m, 0, by simp, ?_, rfl, rfl, fun _ _ => rfl, hf⟩
      have : baseInsert (f k) m n (m.val x) = .threw m := by
        unfold baseInsert
        cases h1 : (f k).alloc <;> cases h2 : (f k).construct <;> simp_all [Mem.dealloc_alloc]
      simp [cloneAll, this]
    · rw [not_or, Bool.not_eq_true, Bool.not_eq_true] at hf
      have e1 : baseInsert (f k) m n (m.val x) = .ok ((m.allocate n).construct n (m.val x)) := by simp [baseInsert, hf.1, hf.2]
      have e2 : cloneAll f k m (x :: xs) (n :: ns) es = cloneAll f (k + 1) ((m.allocate n).construct n (m.val x)) xs ns (es ++ [(x, n)]) := by
        simp [cloneAll, e1]
      have off : ∀ z, z ∉ n :: ns → ((m.allocate n).construct n (m.val x)).val z = m.val z := fun z hz => by
        simp only [List.mem_cons, not_or] at hz
        exact upd_other _ _ hz.1
      rcases cloneAll_spec (f := f) (xs := xs) (ns := ns) (k := k + 1) (m := (m.allocate n).construct n (m.val x)) (es := es ++ [(x, n)])
        (by simpa using hl) nd.2 (fun y hy q => dj y (by simp [hy]) (by simp [q])) with ⟨m', a1, a2, a3, a4, a5, a6⟩ | ⟨m', j, a0, a1, a2, a3, a4, a5⟩
      · left
        refine ⟨m', by rw [e2, a1]; simp, by simp [a2, Mem.construct, Mem.allocate], by simp [a3, Mem.construct, Mem.allocate], ?_, ?_, ?_⟩
        · intro z hz
          rw [a4 z (fun q => hz (by simp [q])), off z hz]
        · intro p hp
          rw [List.zip_cons_cons] at hp
          rcases List.mem_cons.1 hp with rfl | hp
          · rw [a4 n nd.1]
            exact upd_same _ _ _
          · rw [a5 p hp]
            exact off p.1 (dj p.1 (by simp [(List.of_mem_zip hp).1]))
        · intro j hj
          cases j with
          | zero => simpa using hf
          | succ j =>
            have := a6 j (by simpa using hj)
            rwa [show k + 1 + j = k + (j + 1) by omega] at this
      · right
        refine ⟨m', j + 1, by simpa using a0, by rw [e2, a1]; simp, by simp [a2, Mem.construct, Mem.allocate], by simp [a3, Mem.construct, Mem.allocate], ?_, ?_⟩
        · intro z hz
          rw [a4 z (fun q => hz (by simp [q])), off z hz]
        · rwa [show k + 1 + j = k + (j + 1) by omega] at a5

theorem erase_mid {n : Id} {l A : List Id} (h : n ∉ l) : (l ++ n :: A).erase n = l ++ A := by
  rw [List.erase_append_right _ h]
  simp

/-- The clones made so far are deleted. -/
theorem deleteNodes_back : ∀ {ns A C : List Id} {val : Id → V}, ns.Nodup →
    Mem.deleteNodes ⟨val, ns.reverse ++ A, ns.reverse ++ C⟩ ns = some ⟨val, A, C⟩
  | [], A, C, val, _ => rfl
  | n :: ns, A, C, val, nd => by
    rw [List.nodup_cons] at nd
    have hr : n ∉ ns.reverse := by simpa using nd.1
    have e : ∀ B : List Id, (n :: ns).reverse ++ B = ns.reverse ++ n :: B := fun B => by simp
    simp only [Mem.deleteNodes, Mem.deleteNode, Mem.destroy, Mem.deallocate, e]
    rw [if_pos (by simp)]
    simp only
    rw [if_pos (by simp)]
    simp only [erase_mid hr]
    exact deleteNodes_back nd.2

/-! ## The copies of the indices -/

theorem Spec.Good.copy {u : Bool} {lt : V → V → Bool} {val val' : Id → V} {φ : Id → Id} {xs : List Id} (hv : ∀ x ∈ xs, val' (φ x) = val x)
    (g : (Spec.ord u lt).Good val xs) : (Spec.ord u lt).Good val' (xs.map φ) := by
  have pw : ∀ {R R' : Id → Id → Prop}, (∀ x ∈ xs, ∀ y ∈ xs, R x y → R' (φ x) (φ y)) → xs.Pairwise R → (xs.map φ).Pairwise R' := by
    intro R R' h p
    rw [List.pairwise_map]
    exact p.imp_of_mem fun {a b} ha hb k => h a ha b hb k
  cases u with
  | true => exact pw (fun x hx y hy k => by rw [hv x hx, hv y hy]; exact k) g
  | false => exact pw (fun x hx y hy k => by simp only [hv x hx, hv y hy]; exact k) g

section
variable {φ : Id → Id} {f : Id → Option Id} {val val' : Id → V} {hd z : Id} {l pool : List Id} {n count : Nat}

theorem Layer.copy_spec {L : Layer V} {xs : List Id} {e : Env} (w : L.Holds val hd xs) (h0 : φ 0 = 0) (hf : ∀ x ∈ hd :: xs, f x = some (φ x))
    (nd : ((hd :: xs).map φ).Nodup) (nz : 0 ∉ (hd :: xs).map φ) (hv : ∀ x ∈ xs, val' (φ x) = val x) (hl : l.Perm xs) (hc : count = xs.length)
    (hn : xs.length < n) (ok : L.CopyOk pool e) (sub : ∀ x ∈ hd :: xs, φ x ∈ pool) :
    ∃ L', L.copy f (l.map fun x => (x, φ x)) n count hd (φ hd) z e = some L' ∧ L'.Holds val' (φ hd) (xs.map φ) ∧ L'.spec = L.spec ∧
      L'.load = L.load ∧ ∀ y ∈ pool, L'.Avoids y := by
  cases L with
  | ord u lt h =>
    obtain ⟨c', e1, e2⟩ := Ord.copy_spec (c := ⟨fun _ => z, fun _ => z, fun _ => z, fun _ => .red, fun _ => z⟩) w.1 h0 hf nd nz hl
    exact ⟨.ord u lt c', by simp only [Layer.copy, e1, Option.map_some], ⟨e2, w.2.copy hv⟩, rfl, rfl, fun _ _ => trivial⟩
  | hash c eq hf' pol ml h a =>
    have hs : Hash.sizeFor Hash.sizes a.size = a.size := Hash.sizeFor_self w.1
    obtain ⟨c', e1, e2⟩ := Hash.copy_spec (eq' := eqv eq val') (hash' := fun x => hf' (val' x)) (b := ⟨e.base, a.size⟩) (n := n) (count := count)
      (c := ⟨fun _ => z, fun _ => z⟩) w.2 h0 hf nd nz rfl ok.1 (fun x hx => ok.2 _ (sub x hx))
      (fun x hx y hy => by simp only [eqv, hv x hx, hv y hy]) (fun x hx => by simp only [hv x hx]) hc hn
    refine ⟨.hash c eq hf' pol ml c' ⟨e.base, a.size⟩, ?_, ⟨w.1, e2⟩, rfl, rfl, ok.2⟩
    simp only [Layer.copy, hs, e1, Option.map_some]
  | seq h =>
    obtain ⟨c', e1, e2⟩ := Seq.copy_spec (c := ⟨fun _ => z, fun _ => z⟩) w hf nd hn
    exact ⟨.seq c', by simp only [Layer.copy, e1, Option.map_some], e2, rfl, rfl, fun _ _ => trivial⟩
  | rnd s =>
    obtain ⟨c', e1, e2⟩ := Rnd.copy_spec (junk := e.junk) (up := fun _ => z) w hf nd hc
    exact ⟨.rnd c', by simp only [Layer.copy, e1, Option.map_some], e2, rfl, rfl, fun _ _ => trivial⟩

theorem copyLs_spec {els : List Id} (h0 : φ 0 = 0) (hf : ∀ x ∈ hd :: els, f x = some (φ x)) (nd : ((hd :: els).map φ).Nodup)
    (nz : 0 ∉ (hd :: els).map φ) (hv : ∀ x ∈ els, val' (φ x) = val x) (hl : l.Perm els) (hc : count = els.length) (hn : els.length < n)
    (sub : ∀ x ∈ hd :: els, φ x ∈ pool) : ∀ {Ls : List (Layer V)} {xss : List (List Id)} {e : Nat → Env}, Fit val hd els Ls xss → CopyAll pool e Ls →
    ∃ Ls', copyLs f (l.map fun x => (x, φ x)) n count hd (φ hd) z e Ls = some Ls' ∧ Fit val' (φ hd) (els.map φ) Ls' (xss.map (·.map φ)) ∧
      specs Ls' = specs Ls ∧ Ls'.map Layer.load = Ls.map Layer.load ∧ Clear pool Ls'
  | [], xss, e, ft, _ => by
    obtain rfl := ft.nil'
    exact ⟨[], rfl, .nil, rfl, rfl, .nil⟩
  | L :: Ls, xss, e, ft, ok => by
    obtain ⟨xs, yss, rfl, w, p, f2⟩ := ft.cases
    have ph : (hd :: xs).Perm (hd :: els) := p.cons hd
    obtain ⟨L', e1, e2, e3, e4, e5⟩ := Layer.copy_spec (z := z) (val' := val') (n := n) (count := count) (l := l) w h0 (fun x hx => hf x (ph.mem_iff.1 hx))
      ((ph.map φ).nodup_iff.2 nd) (fun q => nz ((ph.map φ).mem_iff.1 q)) (fun x hx => hv x (p.mem_iff.1 hx)) (hl.trans p.symm)
      (by rw [hc, p.length_eq]) (by rw [p.length_eq]; exact hn) ok.1 (fun x hx => sub x (ph.mem_iff.1 hx))
    obtain ⟨Ls', g1, g2, g3, g4, g5⟩ := copyLs_spec h0 hf nd nz hv hl hc hn sub f2 ok.2
    refine ⟨L' :: Ls', by simp only [copyLs, e1, g1], .cons e2 (p.map φ) g2, ?_, ?_, .cons e5 g5⟩
    · simp only [specs] at g3
      simp [specs, e3, g3]
    · simp [e4, g4]

end

/-! ## The copy of a container -/

theorem copy_spec {m : Mem V} {c : Container V} {hd' z : Id} {ns : List Id} {e : Nat → Env} {F : CopyFault} (s : Sound m.val c) (ca : 0 ∉ c.hd :: c.elems)
    (hn : ns.length = c.count) (nd : (hd' :: ns).Nodup) (nz : 0 ∉ hd' :: ns) (fr : ∀ n ∈ hd' :: ns, n ∉ c.elems)
    (env : CopyAll (hd' :: ns ++ m.alloc) e c.ls) :
    (∃ m' c', c.copy m hd' z ns e F = .ok (m', some c') ∧ ¬ F.Some c.count ∧ m'.alloc = ns.reverse ++ hd' :: m.alloc ∧ m'.cons = ns.reverse ++ m.cons ∧
      (∀ z, z ∉ ns → m'.val z = m.val z) ∧ Sound m'.val c' ∧ c'.hd = hd' ∧ c'.elems = ns ∧ specs c'.ls = specs c.ls ∧
      c'.ls.map Layer.load = c.ls.map Layer.load ∧
      c'.seqs = c.seqs.map (·.map (cloneOf c.hd hd' c.elems ns)) ∧ (∀ x ∈ c.elems, m'.val (cloneOf c.hd hd' c.elems ns x) = m.val x) ∧
      Clear (hd' :: ns ++ m.alloc) c'.ls) ∨
    (∃ m', c.copy m hd' z ns e F = .threw (m', none) ∧ F.Some c.count ∧ m'.alloc = m.alloc ∧ m'.cons = m.cons ∧ ∀ z, z ∉ ns → m'.val z = m.val z) := by
  unfold Container.copy
  by_cases f1 : F.header = true
  · right
    exact ⟨m, by rw [if_pos f1], Or.inl f1, rfl, rfl, fun _ _ => rfl⟩
  rw [if_neg f1]
  have dh : ∀ val C, dropHeader (V := V) ⟨val, hd' :: m.alloc, C⟩ hd' = .threw (⟨val, m.alloc, C⟩, none) := by
    intro val C
    simp [dropHeader, Mem.deallocate]
  by_cases f2 : (F.index || F.space) = true
  · right
    refine ⟨m, by rw [if_pos f2]; exact dh _ _, ?_, rfl, rfl, fun _ _ => rfl⟩
    rw [Bool.or_eq_true] at f2
    exact Or.inr (by tauto)
  rw [if_neg f2]
  -- the traversal
  have hw : ∃ L Ls, c.ls = L :: Ls ∧ L.walk c.budget c.hd = some c.elems ∧ (c.hd :: c.elems).Nodup := by
    cases hL : c.ls with
    | nil => exact absurd hL s.ne
    | cons L Ls =>
      have ft := s.fit
      rw [hL] at ft
      obtain ⟨xs, yss, e1, w, p, f2⟩ := ft.cases
      have ee : c.elems = xs := by unfold Container.elems; rw [e1]; rfl
      refine ⟨L, Ls, rfl, ?_, ?_⟩
      · rw [ee]
        exact Layer.walk_spec w (by unfold Container.budget; rw [s.count, ee]; omega)
      · rw [ee]
        exact w.nodup
  obtain ⟨L, Ls, hL, hwk, hnd⟩ := hw
  have len : c.elems.length = ns.length := by rw [hn, s.count]
  have nd' := List.nodup_cons.1 nd
  simp only [hL, hwk]
  rcases cloneAll_spec (f := F.clone) (k := 0) (m := m.allocate hd') (es := []) len nd'.2 (fun x hx q => fr x (by simp [q]) hx) with
    ⟨m', a1, a2, a3, a4, a5, a6⟩ | ⟨m', j, a0, a1, a2, a3, a4, a5⟩
  · left
    simp only [a1, List.nil_append]
    rw [zip_clone (hd' := hd') hnd len] at a5 ⊢
    have hns := map_cloneOf (hd' := hd') hnd len
    generalize hφ : cloneOf c.hd hd' c.elems ns = φ at *
    have e0 : φ c.hd = hd' := by rw [← hφ]; exact cloneOf_hd
    have h0 : φ 0 = 0 := by
      rw [← hφ]
      exact cloneOf_zero (fun k => ca (by simp [k])) (fun k => ca (by simp [k])) len
    obtain ⟨l, l1, l2, l3⟩ := sort_clone (φ := φ) s.count
    rw [l3]
    have hv : ∀ x ∈ c.elems, m'.val (φ x) = m.val x := fun x hx => a5 (x, φ x) (List.mem_map.2 ⟨x, hx, rfl⟩)
    have hmap : (c.hd :: c.elems).map φ = hd' :: ns := by rw [List.map_cons, hns, e0]
    have hfind : ∀ x ∈ c.hd :: c.elems, (CopyMap.mk (l.map fun x => (x, φ x)) c.hd hd').find x = some (φ x) := by
      intro x hx
      rcases List.mem_cons.1 hx with rfl | hx
      · simp [CopyMap.find, e0]
      · exact find_clone l2 (l1.mem_iff.2 hx) e0
    obtain ⟨Ls', g1, g2, g3, g4, g5⟩ := copyLs_spec (z := z) (val' := m'.val) (l := l) (n := c.budget) (count := c.count)
      (f := (CopyMap.mk (l.map fun x => (x, φ x)) c.hd hd').find) h0 hfind (by rw [hmap]; exact nd) (by rw [hmap]; exact nz) hv l1 s.count
      (by unfold Container.budget; rw [s.count]; omega) (pool := hd' :: ns ++ m.alloc)
      (fun x hx => by
        have : φ x ∈ (c.hd :: c.elems).map φ := List.mem_map.2 ⟨x, hx, rfl⟩
        rw [hmap] at this
        exact List.mem_append_left _ this) s.fit env
    rw [e0, hL] at g1
    simp only [g1]
    obtain ⟨s1, s2, s3⟩ := sound_intro (c := ⟨hd', Ls', c.count⟩) (val := m'.val) (els := c.elems.map φ) (specs_ne g3 s.ne) (by rw [g3]; exact s.ok)
      (by rw [List.length_map]; exact s.count) (by rw [← e0]; exact g2)
    refine ⟨m', _, rfl, ?_, by simpa [Mem.allocate] using a2, by simpa [Mem.allocate] using a3, a4, s1, rfl, ?_, by rw [← hL]; exact g3, by rw [← hL]; exact g4, s3, hv, g5⟩
    · rintro (q | q | q | ⟨k, q1, q2⟩)
      · exact f1 q
      · exact f2 (by simp [q])
      · exact f2 (by simp [q])
      · have := a6 k (by rw [← s.count]; exact q1)
        rw [Nat.zero_add] at this
        rw [this.1, this.2] at q2
        simp at q2
    · unfold Container.elems
      rw [s3, ← hns]
      unfold Container.elems
      cases c.seqs <;> rfl
  · right
    simp only [a1, List.nil_append, List.map_take]
    rw [List.map_snd_zip (by omega)]
    have hm : m' = ⟨m'.val, (ns.take j).reverse ++ (hd' :: m.alloc), (ns.take j).reverse ++ m.cons⟩ := by
      cases m'
      simp only [Mem.mk.injEq, true_and]
      exact ⟨a2, a3⟩
    have db := deleteNodes_back (ns := ns.take j) (A := hd' :: m.alloc) (C := m.cons) (val := m'.val) ((List.take_sublist _ _).nodup nd'.2)
    rw [← hm] at db
    refine ⟨⟨m'.val, m.alloc, m.cons⟩, by simp only [db]; exact dh _ _, ?_, rfl, rfl, a4⟩
    rw [Nat.zero_add] at a5
    exact Or.inr (Or.inr (Or.inr ⟨j, by rw [s.count]; exact a0, a5⟩))

end MI.Cont
