import Verif.Ord.Extract
import Verif.Ord.RankLemmas
/-!
# Self checking of ordered indices: counting black nodes

Models the functions of `ordered_index_node_impl` and of the augmenting policy that are compiled only when invariant checking is
enabled.
-/
namespace MI.Ord
open MI

/-- The loop of `black_count`: ord_index_node.hpp:569-573. -/
def blackGo (h : Heap) (root : Id) : Nat → Nat → Id → Option Nat
  | 0, _, _ => none
  | n + 1, sum, x =>
    let sum := if h.color x = .black then sum + 1 else sum
    if x = root then some sum else blackGo h root n sum (h.parent x)

/-- `black_count(node,root)`: ord_index_node.hpp:565-575. -/
def blackCount (n : Nat) (h : Heap) (x root : Id) : Option Nat := if x = 0 then some 0 else blackGo h root n 0 x

/-- `AugmentPolicy::invariant(x)`: ranked_index.hpp:336-340. (For ordered indices that are not ranked the policy answers `true`,
ord_index_impl.hpp; the model maintains sizes for all.) -/
def augInvariant (h : Heap) (x : Id) : Bool := h.size x == nodeSize h (h.left x) + nodeSize h (h.right x) + 1

/-- Number of black nodes along a path. -/
def blacks : Ctx → Nat
  | [] => 0
  | f :: k => (if f.c = .black then 1 else 0) + blacks k

theorem rb_blacks (k : Ctx) : ∀ {t : T} {N : Nat}, (plug k t).RB N → ∃ n, t.RB n ∧ N = n + blacks k := by
  induction k with
  | nil => intro t N h; exact ⟨N, h, by simp [blacks]⟩
  | cons f k ih =>
    intro t N h
    obtain ⟨n, h1, rfl⟩ := ih (t := f.fill t) h
    rcases f with ⟨side, c, s, x, sib⟩
    cases side <;> cases c <;> simp only [Fr.fill, T.RB] at h1
    · exact ⟨n, h1.2.2.1, by simp [blacks]⟩
    · obtain ⟨m, rfl, h2, -⟩ := h1
      exact ⟨m, h2, by simp [blacks]; omega⟩
    · exact ⟨n, h1.2.2.2, by simp [blacks]⟩
    · obtain ⟨m, rfl, -, h2⟩ := h1
      exact ⟨m, h2, by simp [blacks]; omega⟩

theorem blackGo_spec {h : Heap} {hd : Id} (k : Ctx) : ∀ {t : T} {n sum : Nat}, Shape h hd (plug k t) → t ≠ .nil → k.length + 1 ≤ n →
    blackGo h (h.parent hd) n sum t.root = some (sum + (if h.color t.root = .black then 1 else 0) + blacks k) := by
  induction k with
  | nil =>
    intro t n sum H ht hn
    obtain ⟨n, rfl⟩ : ∃ m, n = m + 1 := ⟨n - 1, by omega⟩
    have := H.root_iff.2 rfl
    simp only [blackGo, this, if_true, blacks]
    split <;> simp
  | cons f k ih =>
    intro t n sum H ht hn
    obtain ⟨n, rfl⟩ : ∃ m, n = m + 1 := ⟨n - 1, by omega⟩
    have hne : t.root ≠ h.parent hd := fun e => by simpa using H.root_iff.1 e
    have hp : h.parent t.root = f.x := by
      cases t with
      | nil => exact absurd rfl ht
      | node c s l x r => exact H.read.1
    have H2 : Shape h hd (plug k (f.fill t)) := H
    have ht2 : f.fill t ≠ .nil := by rcases f with ⟨side, c, s, x, sib⟩; cases side <;> simp [Fr.fill]
    have hcol : h.color f.x = f.c := by
      have := (shape_plug.1 H).ctx
      exact this.2.1
    have := ih (n := n) (sum := if h.color t.root = .black then sum + 1 else sum) H2 ht2 (by simp at hn; omega)
    rw [fill_root] at this
    simp only [blackGo, if_neg hne, hp, this, hcol, blacks]
    congr 1
    split <;> split <;> omega

/-- The number of black nodes from a node without left child, or without right child, up to the root. -/
theorem blackCount_spec {h : Heap} {hd : Id} {k : Ctx} {c : Color} {s : Nat} {l r : T} {x : Id} {n N : Nat}
    (H : Shape h hd (plug k (.node c s l x r))) (hb : (plug k (.node c s l x r)).RB N) (he : l = .nil ∨ r = .nil) (hn : k.length + 1 ≤ n) :
    blackCount n h x (h.parent hd) = some N := by
  obtain ⟨m, h1, rfl⟩ := rb_blacks k hb
  have rd := H.read
  have := blackGo_spec k (n := n) (sum := 0) H (by simp) hn
  simp only [T.root, rd.2.1] at this
  rw [blackCount, if_neg rd.2.2.2.2.2.1, this]
  congr 1
  rcases he with rfl | rfl <;> cases c <;> simp [T.RB] at h1 <;> grind

end MI.Ord
