import Verif.Cont.CopySteps
import Verif.Cont.Reach
/-! How many rounds copying takes. -/
namespace MI

theorem lowerBoundS_le (p : Nat → Bool) : ∀ n i l k, l < 2 ^ k → (lowerBoundS p n i l).2 ≤ k
  | 0, _, _, _, _ => Nat.zero_le _
  | n + 1, i, l, k, h => by
    unfold lowerBoundS
    split
    · exact Nat.zero_le _
    · rcases k with _ | k
      · omega
      · simp only
        rw [Nat.pow_succ] at h
        split
        · have := lowerBoundS_le p n (i + l / 2 + 1) (l - l / 2 - 1) k (by omega)
          simp only [plus_snd]
          omega
        · have := lowerBoundS_le p n i (l / 2) k (by omega)
          simp only [plus_snd]
          omega

theorem CopyMap.findS_le (m : CopyMap) (x : Id) : (m.findS x).2 ≤ Nat.log2 m.entries.length + 1 := by
  unfold findS
  split
  · exact Nat.zero_le _
  · exact lowerBoundS_le _ _ _ _ _ Nat.lt_log2_self

variable {g : Id → Option Id × Nat} {B : Nat}

theorem Seq.copyLoopS_le (hB : ∀ x, (g x).2 ≤ B) (h : Heap) (hd : Id) : ∀ n x y c, (copyLoopS g h hd n x y c).2 ≤ n * (B + 1)
  | 0, _, _, _ => Nat.zero_le _
  | n + 1, x, y, c => by
    unfold copyLoopS
    have e := hB (h.next x)
    rw [Nat.succ_mul]
    rcases q : g (h.next x) with ⟨_ | z, k⟩ <;> rw [q] at e <;> simp only at e <;> simp only [q]
    · omega
    · split
      · simp only; omega
      · have := copyLoopS_le hB h hd n (h.next x) z ((c.setNext y z).setPrior z y)
        rw [plus_snd]
        omega

theorem Rnd.copyLoopS_le (hB : ∀ x, (g x).2 ≤ B) (s : Arr) : ∀ k p c, (copyLoopS g s k p c).2 ≤ k * (B + 1)
  | 0, _, _ => Nat.zero_le _
  | k + 1, p, c => by
    unfold copyLoopS
    have e := hB (s.arr p)
    rw [Nat.succ_mul]
    rcases q : g (s.arr p) with ⟨_ | z, j⟩ <;> rw [q] at e <;> simp only at e <;> simp only [q]
    · omega
    · have := copyLoopS_le hB s k (p + 1) (c.put p z)
      rw [plus_snd]
      omega

theorem Ord.copyEntriesS_le (hB : ∀ x, (g x).2 ≤ B) (h : Heap) : ∀ es c, (copyEntriesS g h es c).2 ≤ es.length * (B + 1)
  | [], _ => Nat.zero_le _
  | e :: es, c => by
    have b : (copyEntryS g h c e.1 e.2).2 ≤ B := by
      unfold copyEntryS
      simp only
      split
      · exact Nat.zero_le _
      · exact hB _
    unfold copyEntriesS
    rw [List.length_cons, Nat.succ_mul]
    generalize copyEntryS g h c e.1 e.2 = o at b ⊢
    rcases o with ⟨_ | c', j⟩ <;> simp only at b ⊢
    · omega
    · have := copyEntriesS_le hB h es c'
      rw [plus_snd]
      omega

theorem Ord.copyS_le (hB : ∀ x, (g x).2 ≤ B) (es : List (Id × Id)) (h : Heap) (hd : Id) (c : Heap) (hd' : Id) : (copyS g es h hd c hd').2 ≤ (es.length + 3) * (B + 1) := by
  unfold copyS
  have b1 := hB (h.parent hd)
  have b2 := hB (h.left hd)
  have b3 := hB (h.right hd)
  rw [Nat.add_mul]
  split
  · exact Nat.zero_le _
  · simp only
    rcases (g (h.parent hd)).1 with _ | a <;> [(simp only; omega); skip]
    rcases (g (h.left hd)).1 with _ | b <;> [(simp only; omega); skip]
    rcases (g (h.right hd)).1 with _ | d <;> [(simp only; omega); skip]
    simp only [plus_snd]
    have := fun c => copyEntriesS_le hB h es c
    refine Nat.le_trans (Nat.add_le_add_right (this _) _) ?_
    omega

theorem Hash.copyLoopUS_le (hB : ∀ x, (g x).2 ≤ B) (h : Heap) (a b : Arr) (hd : Id) : ∀ n x y c, (copyLoopUS g h a b hd n x y c).2 ≤ n * (B + 1)
  | 0, _, _, _ => Nat.zero_le _
  | n + 1, x, y, c => by
    rw [copyLoopUS]
    have e := hB (h.prior x)
    rw [Nat.succ_mul]
    rcases q : g (h.prior x) with ⟨_ | z, k⟩ <;> rw [q] at e <;> simp only at e <;> simp only [q]
    · omega
    · generalize (if U.isFirstOfBucket h x = true then _ else _ : Heap) = c'
      split
      · simp only; omega
      · have := copyLoopUS_le hB h a b hd n (h.prior x) z c'
        rw [plus_snd]
        omega

theorem Hash.copyRoundNS_le (hB : ∀ x, (g x).2 ≤ B) (h : Heap) (a b : Arr) (x x' y y' : Id) (c : Heap) : (copyRoundNS g h a b x x' y y' c).2 ≤ 2 * B := by
  unfold copyRoundNS
  have e1 := hB (h.next x)
  have e2 := hB (h.prior x')
  generalize g (h.next x) = o1 at e1 ⊢
  generalize g (h.prior x') = o2 at e2 ⊢
  rcases o1 with ⟨_ | p, i⟩ <;> rcases o2 with ⟨_ | s, j⟩ <;> by_cases t1 : N.isFirstOfBucket h x' = true <;> by_cases t2 : h.next x = x' <;>
    by_cases t3 : h.prior x' = x <;> simp [t1, t2, t3] <;> simp only at e1 e2 <;> omega

theorem Hash.copyLoopNS_le (hB : ∀ x, (g x).2 ≤ B) (h : Heap) (a b : Arr) (hd : Id) : ∀ n x y c, (copyLoopNS g h a b hd n x y c).2 ≤ n * (3 * B + 1)
  | 0, _, _, _ => Nat.zero_le _
  | n + 1, x, y, c => by
    rw [copyLoopNS]
    have e := hB (N.after h x)
    rw [Nat.succ_mul]
    rcases q : g (N.after h x) with ⟨_ | z, k⟩ <;> rw [q] at e <;> simp only at e <;> simp only [q]
    · omega
    · have e2 := copyRoundNS_le hB h a b x (N.after h x) y z c
      generalize copyRoundNS g h a b x (N.after h x) y z c = o at e2 ⊢
      rcases o with ⟨_ | c', j⟩ <;> simp only at e2 ⊢
      · omega
      · split
        · simp only; omega
        · have := copyLoopNS_le hB h a b hd n (N.after h x) z c'
          rw [plus_snd]
          omega

theorem Hash.copyS_le (hB : ∀ x, (g x).2 ≤ B) (ct : Cat) (n : Nat) (h : Heap) (a : Arr) (count : Nat) (hd : Id) (c : Heap) (b : Arr) (hd' : Id) :
    (copyS ct g n h a count hd c b hd').2 ≤ n * (3 * B + 1) + b.size := by
  unfold copyS
  simp only [clearS_eq]
  split
  · cases ct
    · have := copyLoopUS_le hB h a b hd n hd hd' (clear c b hd')
      have := Nat.mul_le_mul_left n (by omega : B + 1 ≤ 3 * B + 1)
      simp only [plus_snd]
      omega
    · have := copyLoopNS_le hB h a b hd n hd hd' (clear c b hd')
      simp only [plus_snd]
      omega
  · simp only; omega

namespace Cont
variable {V : Type}

/-- `bucket_count()`; no buckets unless the index is hashed. -/
def Layer.buckets : Layer V → Nat
  | .hash _ _ _ _ _ _ a => a.size
  | _ => 0

theorem Layer.copyS_le (hB : ∀ x, (g x).2 ≤ B) {val : Id → V} {hd : Id} {xs : List Id} {L : Layer V} (w : L.Holds val hd xs) {es : List (Id × Id)} (he : es.length = xs.length)
    (hd' z : Id) (e : Env) : (L.copyS g es (xs.length + 4) xs.length hd hd' z e).2 ≤ (xs.length + 4) * (3 * B + 1) + L.buckets := by
  have k : ∀ n, n ≤ xs.length + 4 → n * (B + 1) ≤ (xs.length + 4) * (3 * B + 1) := fun n hn => Nat.mul_le_mul hn (by omega)
  cases L with
  | ord u lt h => exact Nat.le_trans (Ord.copyS_le hB ..) (Nat.le_trans (k _ (by omega)) (Nat.le_add_right _ _))
  | hash c eq hf pol ml h a =>
    have q : Hash.sizeFor Hash.sizes a.size = a.size := Hash.sizeFor_self w.1
    have := Hash.copyS_le hB c (xs.length + 4) h a xs.length hd ⟨fun _ => z, fun _ => z⟩ ⟨e.base, Hash.sizeFor Hash.sizes a.size⟩ hd'
    simp only [q] at this
    simp only [copyS, buckets, q]
    exact this
  | seq h => exact Nat.le_trans (Seq.copyLoopS_le hB ..) (Nat.le_trans (k _ (by omega)) (Nat.le_add_right _ _))
  | rnd s =>
    have q : s.size = xs.length := w.1
    exact Nat.le_trans (Rnd.copyLoopS_le hB ..) (Nat.le_trans (k _ (by omega)) (Nat.le_add_right _ _))

theorem copyLsS_le (hB : ∀ x, (g x).2 ≤ B) {val : Id → V} {hd : Id} {els : List Id} {es : List (Id × Id)} (he : es.length = els.length) (hd' z : Id) :
    ∀ {Ls : List (Layer V)} {xss : List (List Id)} (e : Nat → Env), Fit val hd els Ls xss →
      (copyLsS g es (els.length + 4) els.length hd hd' z e Ls).2 ≤ Ls.length * ((els.length + 4) * (3 * B + 1)) + (Ls.map Layer.buckets).sum
  | [], _, _, _ => Nat.zero_le _
  | L :: Ls, _, e, f => by
    obtain ⟨xs, yss, rfl, w, p, f2⟩ := f.cases
    have h1 := L.copyS_le hB w (by rw [he, p.length_eq]) hd' z (e 0)
    have h2 := copyLsS_le hB he hd' z (fun i => e (i + 1)) f2
    rw [p.length_eq] at h1
    simp only [copyLsS, List.length_cons, List.map_cons, List.sum_cons]
    rw [Nat.add_mul, Nat.one_mul]
    generalize (els.length + 4) * (3 * B + 1) = X at h1 h2 ⊢
    omega

theorem cloneAll_length (F : Nat → Fault) : ∀ (xs ns : List Id) (k : Nat) (m : Mem V) (es : List (Id × Id)),
    (∀ m' es', cloneAll F k m xs ns es = .ok (m', es') → es'.length = es.length + xs.length) ∧
    (∀ m' es', cloneAll F k m xs ns es = .threw (m', es') → es'.length + 1 ≤ es.length + xs.length)
  | [], _, _, _, _ => ⟨fun _ _ h => by cases h; rfl, fun _ _ h => nomatch h⟩
  | _ :: _, [], _, _, _ => ⟨fun _ _ h => (nomatch h), fun _ _ h => (nomatch h)⟩
  | x :: xs, n :: ns, k, m, es => by
    rw [cloneAll]
    generalize baseInsert (F k) m n (m.val x) = o
    rcases o with m1 | m1 | _ | _ <;> simp only
    · obtain ⟨h1, h2⟩ := cloneAll_length F xs ns (k + 1) m1 (es ++ [(x, n)])
      refine ⟨fun m' es' h => ?_, fun m' es' h => ?_⟩
      · have := h1 m' es' h; simp at this ⊢; omega
      · have := h2 m' es' h; simp at this ⊢; omega
    · exact ⟨fun _ _ h => (nomatch h), fun _ _ h => by cases h; simp⟩
    · exact ⟨fun _ _ h => (nomatch h), fun _ _ h => (nomatch h)⟩
    · exact ⟨fun _ _ h => (nomatch h), fun _ _ h => (nomatch h)⟩

theorem sortEntries_length (n : Nat) (es : List (Id × Id)) : (sortEntries n es).length = es.length := by
  unfold sortEntries
  split
  · exact (List.perm_insertionSort ..).length_eq
  · rfl

theorem Container.copyS_le (S : Nat → Nat) {val : Id → V} {c : Container V} (s : Sound val c) (m : Mem V) (hd' z : Id) (ns : List Id) (e : Nat → Env) (F : CopyFault) :
    (c.copyS S m hd' z ns e F).2 ≤ 2 * c.count + S c.count + c.ls.length * ((c.count + 4) * (3 * Nat.log2 c.count + 4)) + (c.ls.map Layer.buckets).sum := by
  unfold copyS
  simp only
  split
  · exact Nat.zero_le _
  split
  · exact Nat.zero_le _
  have fit := s.fit
  have hcount := s.count
  have len : ∀ L ∈ c.ls.head?, ∀ xs, L.walk c.budget c.hd = some xs → xs.length = c.count := by
    intro L hL xs hxs
    rw [hcount]
    unfold Container.elems Container.seqs
    rcases q : c.ls with _ | ⟨L', Ls⟩
    · rw [q] at hL; exact nomatch hL
    · rw [q] at hL
      obtain rfl : L' = L := by simpa using hL
      simp [hxs]
  have bound := fun es he g hB => copyLsS_le (g := g) (B := Nat.log2 c.count + 1) hB (es := es) he hd' z e fit
  rw [← hcount] at bound
  generalize c.ls = l at bound len ⊢
  rcases l with _ | ⟨L, Ls⟩
  · exact Nat.zero_le _
  simp only
  rcases q : L.walk c.budget c.hd with _ | xs
  · exact Nat.zero_le _
  have lx := len L (by simp) xs q
  simp only
  obtain ⟨h1, h2⟩ := cloneAll_length F.clone xs ns 0 (m.allocate hd') []
  generalize cloneAll F.clone 0 (m.allocate hd') xs ns [] = o at h1 h2 ⊢
  rcases o with ⟨m', es⟩ | ⟨m', es⟩ | _ | _ <;> simp only
  · have le : es.length = c.count := by have := h1 _ _ rfl; simp at this; omega
    have := bound (sortEntries c.count es) (by rw [sortEntries_length, le]) (CopyMap.findS ⟨sortEntries c.count es, c.hd, hd'⟩) (fun x => by
      have := CopyMap.findS_le ⟨sortEntries c.count es, c.hd, hd'⟩ x
      rwa [sortEntries_length, le] at this)
    have e4 : 3 * (Nat.log2 c.count + 1) + 1 = 3 * Nat.log2 c.count + 4 := by omega
    rw [e4] at this
    rw [le]
    simp only [Container.budget]
    omega
  · have := h2 _ _ rfl
    simp at this
    omega
  · exact Nat.zero_le _
  · exact Nat.zero_le _

end Cont
end MI
