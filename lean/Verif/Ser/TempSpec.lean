import Verif.Ser.Temp
/-! What is said of the temporaries of `load`. -/
namespace MI.Ser
open MI

/-- Each temporary that was constructed has been destroyed. -/
def Temps.NoneLeft (s : Temps) : Prop := ∀ n, s.live n = false

/-- The archive knows the first, second … object it read as the one in the first, second … node of `es`, and has read no others. -/
def Temps.Follows (s : Temps) (es : List Id) : Prop := ∀ n, s.addr n = es[n]?.map .elem

/-- As `Follows`, but the archive may have begun to read one more object, which was in a temporary. -/
def Temps.FollowsUpTo (s : Temps) (es : List Id) : Prop :=
  ∀ n, s.addr n = es[n]?.map .elem ∨ n = es.length ∧ s.addr n = some (.temp n)

end MI.Ser
