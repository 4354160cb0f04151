import Verif.Mt.Wp
/-!
Steps keep the lists of iterators, and leave alone what other threads may look at.
-/
set_option linter.unusedVariables false
namespace MI.Mt
open MI MI.Safe

theorem GRep.of_eq {g h : G} (r : GRep g) (e1 : h.next = g.next) (e2 : h.head = g.head) (e3 : h.lnk = g.lnk) : GRep h :=
  ⟨by rw [e3]; exact r.z, by rw [e1, e2, e3]; exact r.chain⟩

/-- A member of a list and its successor. -/
theorem chain_split {f : Nat → Nat} {q z : Nat} (e : f q = z) (hz : z ≠ 0) : ∀ {l : List Nat} {h : Nat}, Chain f h l → q ∈ l → ∃ a b, l = a ++ q :: z :: b
  | [], h, c, m => absurd m (by simp)
  | x :: l, h, ⟨c1, c2, c3⟩, m => by
    rcases List.mem_cons.1 m with rfl | m
    · cases l with
      | nil => exact absurd (e.symm.trans c3) hz
      | cons y l => exact ⟨[], l, by rw [← e, ← c3.1]; rfl⟩
    · obtain ⟨a, b, rfl⟩ := chain_split e hz c3 m
      exact ⟨x :: a, b, rfl⟩

theorem WL.rep {P : Perm} {g g' : G} {p : Link} {v : Nat} (w : WL P g p v g') (r : GRep g) : GRep g' := by
  cases w with
  | @next y v h1 h2 =>
    refine ⟨r.z, fun s hs => ?_⟩
    obtain ⟨l, l1, l2, l3⟩ := r.chain s hs
    exact ⟨l, l1.congr fun z hz => upd_other _ _ fun e => hs (by rw [← (l3 z).1 hz, e, h2]), l2, l3⟩
  | @push s v h1 h2 h3 h4 h5 h6 =>
    refine ⟨?_, fun u hu => ?_⟩
    · show upd g.lnk v s 0 = 0
      rw [upd_other _ _ (Ne.symm h3)]; exact r.z
    · obtain ⟨l, l1, l2, l3⟩ := r.chain u hu
      have nv : v ∉ l := fun k => hu (by rw [← (l3 v).1 k, h5])
      by_cases e : u = s
      · subst e
        refine ⟨v :: l, ⟨upd_same _ _ _, h3, by rw [show (g.push u v).next v = g.head u from h6]; exact l1⟩, List.nodup_cons.2 ⟨nv, l2⟩, fun y => ?_⟩
        show _ ↔ upd g.lnk v u y = u
        by_cases k : y = v
        · subst k; rw [upd_same]; simp
        · rw [upd_other _ _ k, ← l3]; simp [k]
      · refine ⟨l, by rw [show (g.push s v).head u = g.head u from upd_other _ _ e]; exact l1, l2, fun y => ?_⟩
        show _ ↔ upd g.lnk v s y = u
        by_cases k : y = v
        · subst k; rw [upd_same]; exact ⟨fun q => absurd q nv, fun q => absurd q.symm e⟩
        · rw [upd_other _ _ k, ← l3]
  | @cut s p z h1 h2 h3 h4 h5 h6 h7 =>
    refine ⟨?_, fun u hu => ?_⟩
    · show upd g.lnk z 0 0 = 0
      rw [upd_other _ _ (Ne.symm h5)]; exact r.z
    · obtain ⟨l, l1, l2, l3⟩ := r.chain u hu
      by_cases e : u = s
      · subst e
        have key : ∃ a b, l = a ++ z :: b ∧ Chain (g.cut p z).next ((g.cut p z).head u) (a ++ b) := by
          cases p with
          | head q =>
            have h3 : q = u := h3
            subst h3
            cases l with
            | nil => exact absurd (h4.symm.trans l1) h5
            | cons y l =>
              obtain ⟨c1, c2, c3⟩ := l1
              obtain rfl : y = z := c1.symm.trans h4
              exact ⟨[], l, rfl, by rw [show (g.cut (.head q) y).head q = g.next y from upd_same _ _ _]; exact c3⟩
          | next q =>
            obtain ⟨a, b, rfl⟩ := chain_split h4 h5 l1 ((l3 q).2 h3)
            exact ⟨a ++ [q], b, by simp, by rw [List.append_assoc]; exact chain_setNext l1 l2 rfl⟩
        obtain ⟨a, b, rfl, c⟩ := key
        have nd := List.nodup_middle.1 l2
        refine ⟨a ++ b, c, nd.of_cons, fun y => ?_⟩
        show _ ↔ upd g.lnk z 0 y = u
        by_cases k : y = z
        · subst k
          rw [upd_same]
          exact ⟨fun q => absurd q (List.nodup_cons.1 nd).1, fun q => absurd q.symm hu⟩
        · rw [upd_other _ _ k, ← l3]
          simp [k]
      · have ns : ∀ y ∈ l, g.lnk y ≠ s := fun y hy k => e (((l3 y).1 hy).symm.trans k)
        refine ⟨l, ?_, l2, fun y => ?_⟩
        · have e1 : (g.cut p z).head u = g.head u := by
            cases p with
            | head q =>
              have h3 : q = s := h3
              exact upd_other _ _ (by rw [h3]; exact e)
            | next q => rfl
          rw [e1]
          refine l1.congr fun y hy => ?_
          cases p with
          | head q => rfl
          | next q => exact upd_other _ _ fun k => ns y hy (by rw [k]; exact h3)
        · show _ ↔ upd g.lnk z 0 y = u
          by_cases k : y = z
          · subst k
            rw [upd_same]
            exact ⟨fun q => absurd h6 (ns y q), fun q => absurd q.symm hu⟩
          · rw [upd_other _ _ k, ← l3]
  | @wipe s h1 h2 h3 =>
    refine ⟨?_, fun u hu => ?_⟩
    · show (if g.lnk 0 = s then 0 else g.lnk 0) = 0
      rw [r.z]; split <;> rfl
    · by_cases e : u = s
      · subst e
        refine ⟨[], upd_same _ _ _, List.nodup_nil, fun y => ⟨fun k => absurd k (by simp), fun k => ?_⟩⟩
        have k : (if g.lnk y = u then 0 else g.lnk y) = u := k
        split at k
        · exact absurd k.symm hu
        · contradiction
      · obtain ⟨l, l1, l2, l3⟩ := r.chain u hu
        refine ⟨l, by rw [show (g.wipe s).head u = g.head u from upd_other _ _ e]; exact l1, l2, fun y => ?_⟩
        show _ ↔ (if g.lnk y = s then 0 else g.lnk y) = u
        rw [l3]
        split
        · next k => rw [k]; exact ⟨fun q => absurd q.symm e, fun q => absurd q.symm hu⟩
        · exact .rfl

theorem Act.rep {P : Perm} {g g' : G} (w : Act P g g') (r : GRep g) : GRep g' := by
  cases w with
  | skip => exact r
  | cont v h => exact r.of_eq rfl rfl rfl
  | val v h => exact r.of_eq rfl rfl rfl
  | wl w => exact w.rep r
  | lock h => exact r.of_eq rfl rfl rfl
  | unlock h => exact r.of_eq rfl rfl rfl
  | @xchg s d h1 h2 h3 h4 h5 h6 =>
    have lk : ∀ y, (g.xchg s d).lnk y = if g.lnk y = s then d else if g.lnk y = d then s else g.lnk y := fun y => rfl
    refine ⟨by rw [lk, r.z, if_neg (Ne.symm h1), if_neg (Ne.symm h2)], fun u hu => ?_⟩
    have hd : ∀ w, (g.xchg s d).head w = if w = d then g.head s else if w = s then g.head d else g.head w := fun w => by
      show upd (upd g.head s (g.head d)) d (g.head s) w = _
      by_cases e : w = d
      · subst e; rw [upd_same, if_pos rfl]
      · rw [upd_other _ _ e, if_neg e]
        by_cases e : w = s
        · subst e; rw [upd_same, if_pos rfl]
        · rw [upd_other _ _ e, if_neg e]
    have go : ∀ w, w ≠ 0 → (g.xchg s d).head u = g.head w → (∀ y, (g.xchg s d).lnk y = u ↔ g.lnk y = w) → ∃ l, Chain (g.xchg s d).next ((g.xchg s d).head u) l ∧ l.Nodup ∧
        ∀ y, y ∈ l ↔ (g.xchg s d).lnk y = u := fun w hw e k => by
      obtain ⟨l, l1, l2, l3⟩ := r.chain w hw
      exact ⟨l, by rw [e]; exact l1, l2, fun y => by rw [l3, k]⟩
    by_cases e1 : u = d
    · subst e1
      refine go s h1 (by rw [hd, if_pos rfl]) fun y => ?_
      rw [lk]
      by_cases k1 : g.lnk y = s
      · simp [k1]
      · rw [if_neg k1]
        by_cases k2 : g.lnk y = u
        · rw [if_pos k2]; exact ⟨fun q => absurd q h3, fun q => absurd q k1⟩
        · rw [if_neg k2]; exact ⟨fun q => absurd q k2, fun q => absurd q k1⟩
    · by_cases e2 : u = s
      · subst e2
        refine go d h2 (by rw [hd, if_neg e1, if_pos rfl]) fun y => ?_
        rw [lk]
        by_cases k1 : g.lnk y = u
        · rw [if_pos k1]; exact ⟨fun q => absurd q (Ne.symm h3), fun q => absurd (k1.symm.trans q) h3⟩
        · rw [if_neg k1]
          by_cases k2 : g.lnk y = d
          · simp [k2]
          · rw [if_neg k2]; exact ⟨fun q => absurd q k1, fun q => absurd q k2⟩
      · refine go u hu (by rw [hd, if_neg e1, if_neg e2]) fun y => ?_
        rw [lk]
        by_cases k1 : g.lnk y = s
        · rw [if_pos k1]; exact ⟨fun q => absurd q.symm e1, fun q => absurd (q.symm.trans k1) e2⟩
        · rw [if_neg k1]
          by_cases k2 : g.lnk y = d
          · rw [if_pos k2]; exact ⟨fun q => absurd q.symm e2, fun q => absurd (q.symm.trans k2) e1⟩
          · rw [if_neg k2]

/-- Two threads may run at the same time. -/
structure Disj (P R : Perm) : Prop where
  t : P.t ≠ R.t
  m1 : ∀ y, P.mine y → ¬ R.sees y
  m2 : ∀ y, R.mine y → ¬ P.sees y
  c1 : ∀ s, P.wC s → ¬ R.rC s ∧ ¬ R.wC s
  c2 : ∀ s, R.wC s → ¬ P.rC s ∧ ¬ P.wC s

theorem Disj.symm {P R : Perm} (d : Disj P R) : Disj R P := ⟨d.t.symm, d.m2, d.m1, d.c2, d.c1⟩

theorem Disj.held {P R : Perm} (d : Disj P R) {g : G} {s : Nat} (h : P.held g s) : ¬ R.held g s := by
  rintro (k | ⟨k1, k2⟩)
  · rcases h with h | ⟨h1, h2⟩
    · exact (d.c1 s h).2 k
    · exact (d.c2 s k).1 h1
  · rcases h with h | ⟨h1, h2⟩
    · exact (d.c1 s h).1 k1
    · exact d.t (Option.some.inj (h2.symm.trans k2))

theorem Disj.link {P R : Perm} (d : Disj P R) {g : G} {p : Link} (h : P.canLink g p) : ¬ R.canLink g p := by
  cases p with
  | head s => exact d.held h
  | next y =>
    intro k
    rw [canLink_next] at h k
    rcases h with ⟨h1, h2⟩ | ⟨h1, h2⟩
    · rcases k with ⟨k1, k2⟩ | ⟨k1, k2⟩
      · exact d.held h2 k2
      · exact h1 k1
    · rcases k with ⟨k1, k2⟩ | ⟨k1, k2⟩
      · exact k1 h1
      · exact d.m1 y h2 (R.sub y k2)

theorem WL.other {P R : Perm} {g g' : G} {p : Link} {v : Nat} (w : WL P g p v g') (d : Disj P R) : Agree R g g' := by
  cases w with
  | @next y v h1 h2 =>
    have ny : ¬ R.canLink g (.next y) := d.link (p := .next y) (.inr ⟨h2, h1⟩)
    refine ⟨fun _ _ => rfl, fun _ _ => rfl, fun _ _ => rfl, fun _ _ _ _ => .rfl, fun z k => upd_other _ _ ?_, fun _ _ => rfl, fun _ => .rfl⟩
    rintro rfl
    exact ny k
  | @push s v h1 h2 h3 h4 h5 h6 =>
    have nm : ∀ y, R.mine y → y ≠ v := fun y k e => d.m1 v h4 (R.sub v (e ▸ k))
    refine ⟨fun _ _ => rfl, fun _ _ => rfl, fun y k => upd_other _ _ (nm y k), fun u y z k => ?_, fun z k => rfl, fun u k => upd_other _ _ ?_, fun _ => .rfl⟩
    · show upd g.lnk v s y = u ↔ _
      by_cases e : y = v
      · subst e
        rw [upd_same, h5]
        exact ⟨fun q => absurd (q ▸ k) (d.held h2), fun q => absurd q.symm z⟩
      · rw [upd_other _ _ e]
    · rintro rfl
      exact d.held h2 k
  | @cut s p z h1 h2 h3 h4 h5 h6 h7 =>
    have np : ¬ R.canLink g p := d.link (canLink_of_In h1 h2 h3)
    refine ⟨fun y _ => ?_, fun y _ => ?_, fun y k => upd_other _ _ fun e => d.m1 z h7 (R.sub z (e ▸ k)), fun u y w k => ?_, fun y k => ?_, fun u k => ?_, fun u => ?_⟩
    · cases p <;> rfl
    · cases p <;> rfl
    · show upd g.lnk z 0 y = u ↔ _
      by_cases e : y = z
      · subst e
        rw [upd_same, h6]
        exact ⟨fun q => absurd q.symm w, fun q => absurd (q ▸ k) (d.held h2)⟩
      · rw [upd_other _ _ e]
    · cases p with
      | head q => rfl
      | next q =>
        refine upd_other _ _ ?_
        rintro rfl
        exact np k
    · cases p with
      | head q =>
        refine upd_other _ _ ?_
        rintro rfl
        exact np k
      | next q => rfl
    · cases p <;> exact .rfl
  | @wipe s h1 h2 h3 =>
    have lk : ∀ y, (g.wipe s).lnk y = if g.lnk y = s then 0 else g.lnk y := fun y => rfl
    refine ⟨fun _ _ => rfl, fun _ _ => rfl, fun y k => ?_, fun u y w k => ?_, fun y k => rfl, fun u k => upd_other _ _ ?_, fun _ => .rfl⟩
    · rw [lk, if_neg fun e => d.m1 y (h3 y e) (R.sub y k)]
    · rw [lk]
      split
      · next e =>
        rw [e]
        exact ⟨fun q => absurd q.symm w, fun q => absurd (q ▸ k) (d.held (.inl h2))⟩
      · exact .rfl
    · rintro rfl
      exact d.held (.inl h2) k

theorem Act.other {P R : Perm} {g g' : G} (w : Act P g g') (d : Disj P R) : Agree R g g' := by
  cases w with
  | skip => exact .refl R g
  | @cont y v h =>
    exact { Agree.refl R g with cont := fun z k => upd_other _ _ fun e => d.m1 y h (e ▸ k) }
  | @val y v h =>
    exact { Agree.refl R g with val := fun z k => upd_other _ _ fun e => d.m1 y h (e ▸ k) }
  | wl w => exact w.other d
  | @lock s h =>
    refine { Agree.refl R g with mtx := fun u => ?_ }
    show upd g.mtx s _ u = _ ↔ _
    by_cases e : u = s
    · subst e
      rw [upd_same, h]
      exact ⟨fun q => absurd (Option.some.inj q) d.t, fun q => (by cases q)⟩
    · rw [upd_other _ _ e]
  | @unlock s h =>
    refine { Agree.refl R g with mtx := fun u => ?_ }
    show upd g.mtx s _ u = _ ↔ _
    by_cases e : u = s
    · subst e
      rw [upd_same, h]
      exact ⟨fun q => (by cases q), fun q => absurd (Option.some.inj q) d.t⟩
    · rw [upd_other _ _ e]
  | @xchg s d' h1 h2 h3 h4 h5 h6 =>
    have lk : ∀ y, (g.xchg s d').lnk y = if g.lnk y = s then d' else if g.lnk y = d' then s else g.lnk y := fun y => rfl
    refine ⟨fun _ _ => rfl, fun _ _ => rfl, fun y k => ?_, fun u y w k => ?_, fun y k => rfl, fun u k => ?_, fun _ => .rfl⟩
    · rw [lk, if_neg fun e => d.m1 y (h6 y (.inl e)) (R.sub y k), if_neg fun e => d.m1 y (h6 y (.inr e)) (R.sub y k)]
    · have us : u ≠ s := fun e => d.held (.inl h4) (e ▸ k)
      have ud : u ≠ d' := fun e => d.held (.inl h5) (e ▸ k)
      rw [lk]
      split
      · next e => rw [e]; exact ⟨fun q => absurd q.symm ud, fun q => absurd q.symm us⟩
      · split
        · next e => rw [e]; exact ⟨fun q => absurd q.symm us, fun q => absurd q.symm ud⟩
        · exact .rfl
    · have us : u ≠ s := fun e => d.held (.inl h4) (e ▸ k)
      have ud : u ≠ d' := fun e => d.held (.inl h5) (e ▸ k)
      show upd (upd g.head s (g.head d')) d' (g.head s) u = _
      rw [upd_other _ _ ud, upd_other _ _ us]

/-- Iterators a thread may change are only ever in lists of indices it uses. -/
def Perm.Range (P : Perm) (g : G) : Prop := ∀ y, P.mine y → g.lnk y = 0 ∨ P.rC (g.lnk y) ∨ P.wC (g.lnk y)

theorem Perm.held.uses {P : Perm} {g : G} {s : Nat} (h : P.held g s) : P.rC s ∨ P.wC s := by
  rcases h with h | h
  · exact .inr h
  · exact .inl h.1

theorem Act.range {P : Perm} {g g' : G} (w : Act P g g') (r : P.Range g) : P.Range g' := by
  intro y hy
  have hr := r y hy
  cases w with
  | skip => exact hr
  | cont v h => exact hr
  | val v h => exact hr
  | lock h => exact hr
  | unlock h => exact hr
  | @wl p v g' w =>
    cases w with
    | next v h1 h2 => exact hr
    | @push s v h1 h2 h3 h4 h5 h6 =>
      show upd g.lnk v s y = 0 ∨ P.rC (upd g.lnk v s y) ∨ P.wC (upd g.lnk v s y)
      by_cases e : y = v
      · subst e; rw [upd_same]; exact .inr h2.uses
      · rw [upd_other _ _ e]; exact hr
    | @cut s p z h1 h2 h3 h4 h5 h6 h7 =>
      show upd g.lnk z 0 y = 0 ∨ P.rC (upd g.lnk z 0 y) ∨ P.wC (upd g.lnk z 0 y)
      by_cases e : y = z
      · subst e; rw [upd_same]; exact .inl rfl
      · rw [upd_other _ _ e]; exact hr
    | @wipe s h1 h2 h3 =>
      show (if g.lnk y = s then 0 else g.lnk y) = 0 ∨ _
      by_cases e : g.lnk y = s
      · exact .inl (if_pos e)
      · have : (g.wipe s).lnk y = g.lnk y := if_neg e
        rw [this, if_neg e]; exact hr
  | @xchg s d h1 h2 h3 h4 h5 h6 =>
    have lk : (g.xchg s d).lnk y = if g.lnk y = s then d else if g.lnk y = d then s else g.lnk y := rfl
    rw [lk]
    by_cases e : g.lnk y = s
    · rw [if_pos e]; exact .inr (.inr h5)
    · rw [if_neg e]
      by_cases e2 : g.lnk y = d
      · rw [if_pos e2]; exact .inr (.inr h4)
      · rw [if_neg e2]; exact hr

theorem Agree.range {P : Perm} {g h : G} (a : Agree P g h) (r : P.Range g) : P.Range h := fun y k => by
  rw [a.lnk y k]; exact r y k

/-- A thread changes only iterators it may change. -/
theorem Act.own {P : Perm} {g g' : G} (w : Act P g g') (y : Nat) (h : ¬ P.mine y) : g'.cont y = g.cont y ∧ g'.val y = g.val y ∧ g'.lnk y = g.lnk y := by
  cases w with
  | skip => exact ⟨rfl, rfl, rfl⟩
  | @cont z v k => exact ⟨upd_other _ _ fun e => h (e ▸ k), rfl, rfl⟩
  | @val z v k => exact ⟨rfl, upd_other _ _ fun e => h (e ▸ k), rfl⟩
  | lock k => exact ⟨rfl, rfl, rfl⟩
  | unlock k => exact ⟨rfl, rfl, rfl⟩
  | @wl p v g' w =>
    cases w with
    | next v h1 h2 => exact ⟨rfl, rfl, rfl⟩
    | push h1 h2 h3 h4 h5 h6 => exact ⟨rfl, rfl, upd_other _ _ fun e => h (e ▸ h4)⟩
    | @cut s p z h1 h2 h3 h4 h5 h6 h7 => exact ⟨(by cases p <;> rfl), (by cases p <;> rfl), upd_other _ _ fun e => h (e ▸ h7)⟩
    | wipe h1 h2 h3 => exact ⟨rfl, rfl, if_neg fun e => h (h3 y e)⟩
  | xchg h1 h2 h3 h4 h5 h6 => exact ⟨rfl, rfl, by show (if _ then _ else if _ then _ else _) = _; rw [if_neg fun e => h (h6 y (.inl e)), if_neg fun e => h (h6 y (.inr e))]⟩

end MI.Mt
