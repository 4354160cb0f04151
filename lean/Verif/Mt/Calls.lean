import Verif.Mt.Sound
/-!
The functions of safe mode are safe, and what they do.
-/
set_option linter.unusedVariables false
namespace MI.Mt
open MI MI.Safe

/-- What a thread knows: which mutexes it has locked (`H`), what the iterators it may read look like (`T`), the lists that those it may change are in (`K`). -/
structure Now (P : Perm) (H : Nat → Prop) (T : Nat → View) (K : Nat → Nat) (g : G) : Prop where
  cv : ∀ y, P.sees y → g.cont y = (T y).cont ∧ g.val y = (T y).val
  lk : ∀ y, P.mine y → g.lnk y = K y
  mtx : ∀ s, g.mtx s = some P.t ↔ H s
  rep : GRep g
  all : ∀ s y, s ≠ 0 → P.wC s → g.lnk y = s → P.mine y

/-- No mutex locked, every iterator in the list it should be in. -/
def Calm (P : Perm) (T : Nat → View) (g : G) : Prop := Now P (fun _ => False) T (fun y => (T y).cont) g

variable {P : Perm} {Q : G → Prop} {H : Nat → Prop} {T : Nat → View} {K : Nat → Nat} {g : G}

theorem Now.agree {h : G} (n : Now P H T K g) (a : Agree P g h) (r : GRep h) : Now P H T K h :=
  ⟨fun y k => ⟨(a.cont y k).trans (n.cv y k).1, (a.val y k).trans (n.cv y k).2⟩, fun y k => (a.lnk y k).trans (n.lk y k), fun s => (a.mtx s).trans (n.mtx s), r,
    fun s y z w k => n.all s y z w ((a.lnkS s y z (.inl w)).1 k)⟩

theorem Now.setCont (n : Now P H T K g) (y v : Nat) : Now P H (upd T y ⟨v, (T y).val⟩) K (g.setCont y v) := by
  refine ⟨fun z k => ?_, n.lk, n.mtx, n.rep.of_eq rfl rfl rfl, n.all⟩
  by_cases e : z = y
  · subst e; rw [upd_same]; exact ⟨upd_same _ _ _, (n.cv z k).2⟩
  · rw [upd_other _ _ e]; exact ⟨(upd_other _ _ e).trans (n.cv z k).1, (n.cv z k).2⟩

theorem Now.setVal (n : Now P H T K g) (y : Nat) (v : Id × Bool) : Now P H (upd T y ⟨(T y).cont, v⟩) K (g.setVal y v) := by
  refine ⟨fun z k => ?_, n.lk, n.mtx, n.rep.of_eq rfl rfl rfl, n.all⟩
  by_cases e : z = y
  · subst e; rw [upd_same]; exact ⟨(n.cv z k).1, upd_same _ _ _⟩
  · rw [upd_other _ _ e]; exact ⟨(n.cv z k).1, (upd_other _ _ e).trans (n.cv z k).2⟩

theorem Now.congr {T' : Nat → View} {K' : Nat → Nat} {H' : Nat → Prop} (n : Now P H T K g) (h1 : ∀ y, P.sees y → T' y = T y) (h2 : ∀ y, P.mine y → K' y = K y)
    (h3 : ∀ s, H' s ↔ H s) : Now P H' T' K' g :=
  ⟨fun y k => by rw [h1 y k]; exact n.cv y k, fun y k => by rw [h2 y k]; exact n.lk y k, fun s => by rw [h3]; exact n.mtx s, n.rep, n.all⟩

theorem Now.unlock (n : Now P H T K g) (s : Nat) : Now P (fun u => H u ∧ u ≠ s) T K (g.setMtx s none) := by
  refine ⟨n.cv, n.lk, fun u => ?_, n.rep.of_eq rfl rfl rfl, n.all⟩
  show upd g.mtx s none u = _ ↔ _
  by_cases e : u = s
  · subst e; rw [upd_same]; simp
  · rw [upd_other _ _ e, n.mtx]; simp [e]

theorem Now.next (n : Now P H T K g) {y : Nat} (v : Nat) (hm : P.mine y) (hl : g.lnk y = 0) : Now P H T K (g.setNext y v) :=
  ⟨n.cv, n.lk, n.mtx, (WL.next v hm hl : WL P g _ _ _).rep n.rep, n.all⟩

theorem Now.push (n : Now P H T K g) {s v : Nat} (hs : s ≠ 0) (hh : P.held g s) (hv : v ≠ 0) (hm : P.mine v) (hl : g.lnk v = 0) (hn : g.next v = g.head s) :
    Now P H T (upd K v s) (g.push s v) := by
  refine ⟨n.cv, fun y k => ?_, n.mtx, (WL.push hs hh hv hm hl hn).rep n.rep, fun u y z w k => ?_⟩
  · show upd g.lnk v s y = _
    by_cases e : y = v
    · subst e; rw [upd_same, upd_same]
    · rw [upd_other _ _ e, upd_other _ _ e]; exact n.lk y k
  · by_cases e : y = v
    · subst e; exact hm
    · exact n.all u y z w (by rw [← k]; exact (upd_other _ _ e).symm)

theorem cut_cont (g : G) (p : Link) (z : Nat) : (g.cut p z).cont = g.cont := by cases p <;> rfl
theorem cut_val (g : G) (p : Link) (z : Nat) : (g.cut p z).val = g.val := by cases p <;> rfl
theorem cut_mtx (g : G) (p : Link) (z : Nat) : (g.cut p z).mtx = g.mtx := by cases p <;> rfl

theorem Now.cut (n : Now P H T K g) {s z : Nat} {p : Link} (hs : s ≠ 0) (hh : P.held g s) (hi : g.In s p) (hp : g.link p = z) (hz : z ≠ 0) (hl : g.lnk z = s) (hm : P.mine z) :
    Now P H T (upd K z 0) (g.cut p z) := by
  refine ⟨fun y k => by rw [cut_cont, cut_val]; exact n.cv y k, fun y k => ?_, fun u => by rw [cut_mtx]; exact n.mtx u, (WL.cut hs hh hi hp hz hl hm).rep n.rep, fun u y w e k => ?_⟩
  · show upd g.lnk z 0 y = _
    by_cases e : y = z
    · subst e; rw [upd_same, upd_same]
    · rw [upd_other _ _ e, upd_other _ _ e]; exact n.lk y k
  · by_cases e2 : y = z
    · subst e2; exact hm
    · exact n.all u y w e (by rw [← k]; exact (upd_other _ _ e2).symm)

theorem wp_lock {s : Nat} {k : Code} (n : Now P H T K g) (hu : P.rC s ∨ P.wC s) (hh : ¬ H s)
    (w : ∀ h, Now P (fun u => H u ∨ u = s) T K h → P.held h s → wp P Q k h) : wp P Q (.lock s k) g := by
  refine ⟨hu, fun e => hh ((n.mtx s).1 e), fun h a r => ?_⟩
  have m := n.agree a r
  have e : (h.setMtx s (some P.t)).mtx s = some P.t := upd_same _ _ _
  refine w _ ⟨m.cv, m.lk, fun u => ?_, m.rep.of_eq rfl rfl rfl, m.all⟩ (hu.elim (fun k => .inr ⟨k, e⟩) .inl)
  by_cases e2 : u = s
  · subst e2; rw [e]; simp
  · rw [show (h.setMtx s (some P.t)).mtx u = h.mtx u from upd_other _ _ e2, m.mtx]; simp [e2]

theorem path_of_chain {s e : Nat} {b : List Nat} : ∀ {a : List Nat} {p : Link}, Chain g.next (g.link p) (a ++ b) → b.headD 0 = e → (∀ y ∈ a, y ≠ e ∧ g.lnk y = s) → g.In s p →
    Path g s p a e ∧ g.link (lastLink p a) = e ∧ g.In s (lastLink p a)
  | [], p, c, he, _, i => by
    have : g.link p = e := by
      cases b with
      | nil => exact Eq.trans c he
      | cons y b => exact c.1.trans he
    exact ⟨this, this, i⟩
  | y :: a, p, ⟨c1, c2, c3⟩, he, k, i => by
    have hy := k y (by simp)
    obtain ⟨q1, q2, q3⟩ := path_of_chain (p := .next y) c3 he (fun z hz => k z (by simp [hz])) hy.2
    exact ⟨⟨c1, hy.1, c2, hy.2, q1⟩, q2, q3⟩

theorem Now.calm (n : Now P H T K g) (h1 : ∀ y, P.mine y → K y = (T y).cont) (h2 : ∀ s, ¬ H s) : Calm P T g :=
  n.congr (fun _ _ => rfl) (fun y k => (h1 y k).symm) fun s => ⟨fun k => k.elim, h2 s⟩

/-- `attach` -/
theorem wp_attach {it s : Nat} {k : Code} (n : Calm P T g) (hm : P.mine it) (hz : it ≠ 0) (h0 : (T it).cont = 0) (hu : s ≠ 0 → P.rC s ∨ P.wC s)
    (w : ∀ h, Calm P (upd T it ⟨s, (T it).val⟩) h → wp P Q k h) : wp P Q (attachCode it s k) g := by
  have n1 := n.setCont it s
  refine ⟨hm, ?_⟩
  by_cases e : s = 0
  · rw [if_pos e]
    refine w _ (n1.calm (fun y _ => ?_) fun _ k => k)
    by_cases e2 : y = it
    · subst e2; rw [upd_same, h0, e]
    · rw [upd_other _ _ e2]
  · rw [if_neg e]
    refine wp_lock n1 (hu e) (fun k => k) fun h m hh => ?_
    have l0 : h.lnk it = 0 := (m.lk it hm).trans h0
    have m2 := m.next (h.link (.head s)) hm l0
    have en : (h.setNext it (h.link (.head s))).next it = (h.setNext it (h.link (.head s))).head s := upd_same _ _ _
    have m3 := m2.push e hh hz hm l0 en
    refine ⟨hh, _, .next _ hm l0, _, .push e hh hz hm l0 en, (m3.mtx s).2 (.inr rfl), w _ ((m3.unlock s).calm (fun y _ => ?_) fun u k => k.2 (k.1.resolve_left fun q => q))⟩
    by_cases e2 : y = it
    · subst e2; rw [upd_same, upd_same]
    · rw [upd_other _ _ e2, upd_other _ _ e2]

/-- `detach` -/
theorem wp_detach {it : Nat} {k : Code} (n : Calm P T g) (hm : P.mine it) (hu : (T it).cont ≠ 0 → P.rC (T it).cont ∨ P.wC (T it).cont)
    (w : ∀ h, Calm P (upd T it ⟨0, (T it).val⟩) h → wp P Q k h) : wp P Q (detachCode it k) g := by
  refine ⟨P.sub it hm, ?_⟩
  rw [(n.cv it (P.sub it hm)).1]
  dsimp only
  by_cases e : (T it).cont = 0
  · rw [if_pos e]
    refine w _ (Now.calm (Now.congr n (fun y _ => ?_) (fun _ _ => rfl) fun _ => .rfl) (fun y _ => ?_) fun _ k => k)
    · by_cases e2 : y = it
      · subst e2; rw [upd_same, ← e]
      · rw [upd_other _ _ e2]
    · by_cases e2 : y = it
      · subst e2; rw [upd_same, ← e]
      · rw [upd_other _ _ e2]
  · rw [if_neg e]
    generalize hs : (T it).cont = s at *
    refine wp_lock n (hu e) (fun k => k) fun h m hh => ?_
    have li : h.lnk it = s := (m.lk it hm).trans hs
    obtain ⟨l, l1, l2, l3⟩ := m.rep.chain s e
    obtain ⟨a, b, rfl⟩ := List.append_of_mem ((l3 it).2 li)
    have nz : it ≠ 0 := fun q => Chain.nz l1 (by rw [← q]; simp)
    have nd := (List.nodup_cons.1 (List.nodup_middle.1 l2)).1
    obtain ⟨q1, q2, q3⟩ := path_of_chain (p := .head s) (s := s) (e := it) l1 rfl
      (fun y hy => ⟨fun q => nd (by rw [← q]; simp [hy]), (l3 y).1 (by simp [hy])⟩) rfl
    have m2 := (m.cut e hh q3 q2 nz li hm).setCont it 0
    refine ⟨s, a, e, hh, rfl, q1, canLink_of_In (p := .next it) e hh li, _, .cut e hh q3 q2 nz li hm, hm, (m2.mtx s).2 (.inr rfl),
      w _ ((m2.unlock s).calm (fun y _ => ?_) fun u k => k.2 (k.1.resolve_left fun q => q))⟩
    by_cases e2 : y = it
    · subst e2; rw [upd_same, upd_same]
    · rw [upd_other _ _ e2, upd_other _ _ e2]

/-- Constructor -/
theorem wp_make {it s : Nat} {x : Id} {k : Code} (n : Calm P T g) (hm : P.mine it) (hz : it ≠ 0) (h0 : (T it).cont = 0) (hu : s ≠ 0 → P.rC s ∨ P.wC s)
    (w : ∀ h, Calm P (upd T it ⟨s, (x, false)⟩) h → wp P Q k h) : wp P Q (makeCode it s x k) g := by
  refine ⟨hm, wp_attach (T := upd T it ⟨(T it).cont, (x, false)⟩) ((n.setVal it (x, false)).calm (fun y _ => ?_) fun _ k => k) hm hz (by rw [upd_same]; exact h0) hu fun h c => w h ?_⟩
  · by_cases e2 : y = it
    · subst e2; rw [upd_same]
    · rw [upd_other _ _ e2]
  · have : upd (upd T it ⟨(T it).cont, (x, false)⟩) it ⟨s, (upd T it ⟨(T it).cont, (x, false)⟩ it).val⟩ = upd T it ⟨s, (x, false)⟩ := by
      funext y
      by_cases e2 : y = it
      · subst e2; rw [upd_same, upd_same, upd_same]
      · rw [upd_other _ _ e2, upd_other _ _ e2, upd_other _ _ e2]
    rw [this] at c; exact c

/-- Copy constructor -/
theorem wp_copy {it a : Nat} {k : Code} (n : Calm P T g) (hm : P.mine it) (hz : it ≠ 0) (h0 : (T it).cont = 0) (ha : P.sees a) (hne : a ≠ it)
    (hu : (T a).cont ≠ 0 → P.rC (T a).cont ∨ P.wC (T a).cont)
    (w : ∀ h, Calm P (upd T it (T a)) h → wp P Q k h) : wp P Q (copyCode it a k) g := by
  refine ⟨ha, hm, ha, ?_⟩
  have hv := (n.cv a ha).2
  have hc : (g.setVal it (g.val a)).cont a = (T a).cont := (n.cv a ha).1
  rw [hc, hv]
  refine wp_attach (T := upd T it ⟨(T it).cont, (T a).val⟩) ((n.setVal it _).calm (fun y _ => ?_) fun _ k => k) hm hz (by rw [upd_same]; exact h0) hu fun h c => w h ?_
  · by_cases e2 : y = it
    · subst e2; rw [upd_same]
    · rw [upd_other _ _ e2]
  · have : upd (upd T it ⟨(T it).cont, (T a).val⟩) it ⟨(T a).cont, (upd T it ⟨(T it).cont, (T a).val⟩ it).val⟩ = upd T it (T a) := by
      funext y
      by_cases e2 : y = it
      · subst e2; rw [upd_same, upd_same, upd_same]
      · rw [upd_other _ _ e2, upd_other _ _ e2, upd_other _ _ e2]
    rw [this] at c; exact c

/-! ### the loops -/

/-- What the loops take out, in terms of what iterators look like. -/
def hitV (T : Nat → View) (neg : Bool) (it y : Nat) : Prop := if neg then (T y).val.1 ≠ (T it).val.1 else y ≠ it ∧ (T y).val.1 = (T it).val.1

instance (T : Nat → View) (neg : Bool) (it y : Nat) : Decidable (hitV T neg it y) := by unfold hitV; infer_instance

theorem hit_iff (n : Now P H T K g) {neg : Bool} {it y : Nat} (h1 : P.sees it) (h2 : P.sees y) : g.hit neg it y = true ↔ hitV T neg it y := by
  unfold G.hit hitV
  rw [(n.cv it h1).2, (n.cv y h2).2]
  cases neg <;> simp

theorem Now.move (n : Now P H T K g) {it t s y : Nat} {p : Link} {l : List Nat} (o : SweepOk P g it t s p (y :: l)) :
    Now P H (upd T y ⟨t, (T y).val⟩) (upd K y t) (g.move p y t) := by
  have hy := o.mine y (by simp)
  obtain ⟨q1, q2, q3, q4, q5⟩ := o.path
  have n1 := (n.cut o.z (.inl o.w) o.i q1 q3 q4 hy).setCont y t
  unfold G.move
  dsimp only
  by_cases e : t = 0
  · rw [if_pos e]
    subst e
    exact n1
  · rw [if_neg e]
    have l0 : ((g.cut p y).setCont y t).lnk y = 0 := upd_same _ _ _
    refine ((n1.next _ hy l0).push e (.inl (o.tw.resolve_left e)) q3 hy l0 (upd_same _ _ _)).congr (fun _ _ => rfl) (fun z _ => ?_) fun _ => .rfl
    by_cases e2 : z = y
    · subst e2; rw [upd_same, upd_same]
    · rw [upd_other _ _ e2, upd_other _ _ e2, upd_other _ _ e2]

theorem Now.swept {neg : Bool} {it t s : Nat} : ∀ {l : List Nat} {T : Nat → View} {K : Nat → Nat} {g : G} {p : Link}, Now P H T K g → SweepOk P g it t s p l →
    Now P H (fun y => if y ∈ l ∧ hitV T neg it y then ⟨t, (T y).val⟩ else T y) (fun y => if y ∈ l ∧ hitV T neg it y then t else K y) (g.swept neg it t p l)
  | [], T, K, g, p, n, o => n.congr (fun y _ => by simp) (fun y _ => by simp) fun _ => .rfl
  | y :: l, T, K, g, p, n, o => by
    have hy := o.mine y (by simp)
    have nd := List.nodup_cons.1 o.nd
    have hi := hit_iff n (neg := neg) o.si (P.sub y hy)
    unfold G.swept
    by_cases e : g.hit neg it y
    · rw [if_pos e]
      have hv := hi.1 e
      have hne := hit_ne e
      have same : ∀ z, z ≠ y → (hitV (upd T y ⟨t, (T y).val⟩) neg it z ↔ hitV T neg it z) := fun z hz => by
        unfold hitV
        rw [upd_other _ _ hz, upd_other _ _ (Ne.symm hne)]
      refine (Now.swept (n.move o) (o.moved hne)).congr (fun z _ => ?_) (fun z _ => ?_) fun _ => .rfl
      · by_cases e2 : z = y
        · subst e2
          rw [if_pos ⟨by simp, hv⟩, if_neg (fun q => nd.1 q.1), upd_same]
        · simp only [same z e2, upd_other _ _ e2, List.mem_cons, e2, false_or]
      · by_cases e2 : z = y
        · subst e2
          rw [if_pos ⟨by simp, hv⟩, if_neg (fun q => nd.1 q.1), upd_same]
        · simp only [same z e2, upd_other _ _ e2, List.mem_cons, e2, false_or]
    · rw [if_neg e]
      have hv : ¬ hitV T neg it y := fun q => e (hi.2 q)
      refine (Now.swept n o.passed).congr (fun z _ => ?_) (fun z _ => ?_) fun _ => .rfl
      · by_cases e2 : z = y
        · subst e2
          rw [if_neg (fun q => hv q.2), if_neg (fun q => hv q.2)]
        · simp only [List.mem_cons, e2, false_or]
      · by_cases e2 : z = y
        · subst e2
          rw [if_neg (fun q => hv q.2), if_neg (fun q => hv q.2)]
        · simp only [List.mem_cons, e2, false_or]

/-- The loops of safe mode that detach or transfer iterators, started at the header of `s`. -/
theorem wp_sweep {neg : Bool} {it t s : Nat} {k : Code} (n : Now P H T (fun y => (T y).cont) g) (hw : P.wC s) (hz : s ≠ 0) (hts : t ≠ s) (htw : t = 0 ∨ P.wC t)
    (hi : P.sees it) (hc : (T it).cont = s) (hsm : ∀ y, P.sees y → P.mine y)
    (w : ∀ h, Now P H (fun y => if (T y).cont = s ∧ hitV T neg it y then ⟨t, (T y).val⟩ else T y)
      (fun y => if (T y).cont = s ∧ hitV T neg it y then t else (T y).cont) h → wp P Q k h) : wp P Q (.sweep neg it t (.head s) k) g := by
  obtain ⟨l, l1, l2, l3⟩ := n.rep.chain s hz
  have hm : ∀ y ∈ l, P.mine y := fun y hy => n.all s y hz hw ((l3 y).1 hy)
  have hT : ∀ y, P.mine y → (y ∈ l ↔ (T y).cont = s) := fun y hy => by rw [l3, n.lk y hy]
  have o : SweepOk P g it t s (.head s) l :=
    ⟨hw, hz, hts, htw, rfl, (path_of_chain (p := .head s) (e := 0) (b := []) (by rw [List.append_nil]; exact l1) rfl (fun y hy => ⟨fun q => Chain.nz l1 (q ▸ hy), (l3 y).1 hy⟩) rfl).1, l2, nofun, hm,
      fun y hy => (n.cv y (P.sub y (hm y hy))).1.trans ((hT y (hm y hy)).1 hy), hi, (n.cv it hi).1.trans hc⟩
  refine ⟨s, l, o, w _ ((n.swept o).congr (fun y k => ?_) (fun y k => ?_) fun _ => .rfl)⟩
  · simp only [hT y (hsm y k)]
  · simp only [hT y k]

/-- The loops of safe mode that set `cont`. -/
theorem wp_setAll {s v : Nat} {k : Code} {T0 : Nat → View} (n : Now P H T (fun y => (T0 y).cont) g) (hw : P.wC s) (hz : s ≠ 0) (hsm : ∀ y, P.sees y → P.mine y)
    (w : ∀ h, Now P H (fun y => if (T0 y).cont = s then ⟨v, (T y).val⟩ else T y) (fun y => (T0 y).cont) h → wp P Q k h) :
    wp P Q (.rdLink (.head s) fun y => .setAll v y k) g := by
  obtain ⟨l, l1, l2, l3⟩ := n.rep.chain s hz
  have hm : ∀ y ∈ l, P.mine y := fun y hy => n.all s y hz hw ((l3 y).1 hy)
  refine ⟨.inl hw, s, l, hz, hw, l1, fun z hz => ⟨hm z hz, (l3 z).1 hz⟩, w _ ⟨fun y hy => ?_, n.lk, n.mtx, n.rep.of_eq rfl rfl rfl, n.all⟩⟩
  have e : y ∈ l ↔ (T0 y).cont = s := by rw [l3, n.lk y (hsm y hy)]
  have e2 : (g.contAll v l).cont y = if y ∈ l then v else g.cont y := rfl
  have e3 : (g.contAll v l).val y = g.val y := rfl
  rw [e2, e3]
  simp only [e]
  split
  · exact ⟨rfl, (n.cv y hy).2⟩
  · exact n.cv y hy

end MI.Mt
