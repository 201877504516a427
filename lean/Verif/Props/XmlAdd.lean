import Verif.Model.XmlAdd
import Verif.Props.XmlTree

/-! C206: what minidom's functions add is what piksemel's add. -/

namespace Pisi.Xml

theorem lastIdx_mod (t : Str) (f : Xml → Xml) (ks : List Xml) :
    modLast t f ks = (Mdom.lastIdx t ks).map (fun i => ks.modify i f) := by
  induction ks with
  | nil => rfl
  | cons x xs ih =>
    unfold modLast Mdom.lastIdx
    rw [ih, mdom_named]
    cases Mdom.lastIdx t xs with
    | some i => simp
    | none => by_cases h : x.isTag t = true <;> simp [h]

theorem lastIdx_lt (t : Str) (ks : List Xml) (i : Nat) (h : Mdom.lastIdx t ks = some i) : i < ks.length := by
  induction ks generalizing i with
  | nil => cases h
  | cons x xs ih =>
    unfold Mdom.lastIdx at h
    cases hx : Mdom.lastIdx t xs with
    | some j =>
      rw [hx] at h
      cases h
      have := ih j hx
      simp only [List.length_cons]; omega
    | none =>
      rw [hx] at h
      by_cases hn : Mdom.named t x = true
      · simp [hn] at h; subst h; simp
      · simp [hn] at h

theorem modify_congr (f g : Xml → Xml) (ks : List Xml) (i : Nat) (h : ∀ k, ks[i]? = some k → f k = g k) :
    ks.modify i f = ks.modify i g := by
  induction ks generalizing i with
  | nil => simp
  | cons x xs ih =>
    cases i with
    | zero => simp [h x (by simp)]
    | succ i => simp [ih i (fun k hk => h k (by simpa using hk))]

theorem mdom_search (rem : Nat) (ts : List Str) (c : List Xml) (n : Xml) :
    Mdom.appendAt (Mdom.search rem ts n).1 (newChain (Mdom.search rem ts n).2 c) n = addLoop rem ts c n := by
  induction ts generalizing n with
  | nil => simp [Mdom.search, Mdom.appendAt, newChain, addLoop]
  | cons t ts ih =>
    unfold Mdom.search addLoop
    by_cases hl : (t :: ts).length > rem
    · rw [if_pos hl, if_pos hl]
      cases n with
      | text s => simp [Xml.kids, Mdom.lastIdx, Mdom.appendAt, addKids]
      | elem u as ks =>
        simp only [Xml.kids, lastIdx_mod]
        cases hi : Mdom.lastIdx t ks with
        | none => simp [Mdom.appendAt]
        | some i =>
          have hlt := lastIdx_lt t ks i hi
          simp only [Option.map_some, List.getElem?_eq_getElem hlt, Mdom.appendAt]
          congr 1
          refine modify_congr _ _ _ _ (fun k hk => ?_)
          rw [List.getElem?_eq_getElem hlt] at hk
          cases hk
          exact ih _
    · rw [if_neg hl, if_neg hl]
      simp [Mdom.appendAt]

/-- **C206, proved part, for what is added.**  Whatever is added at whatever path, with a new last tag or without, minidom's functions give
the document that piksemel's give; so do they for texts, where piksemel's always makes a new last tag. -/
theorem backend_add_partial (n : Xml) (p : Str) :
    (∀ new branch, Mdom.addNode n p new branch = addNode n p new branch) ∧ ∀ s, Mdom.addText n p s true = addText n p s := by
  have h : ∀ new branch, Mdom.addNode n p new branch = addNode n p new branch := by
    intro new branch
    unfold Mdom.addNode addNode
    by_cases hp : p = []
    · rw [if_pos hp, if_pos hp]; rfl
    · rw [if_neg hp, if_neg hp, mdom_search]
  exact ⟨h, fun s => h _ _⟩

/-- A case of it: the second of two `a` gets the `b`. -/
example : Mdom.addNode (.elem "r".toList [] [.elem "a".toList [] [], .elem "a".toList [] []]) "a/b".toList none true =
    .elem "r".toList [] [.elem "a".toList [] [], .elem "a".toList [] [.elem "b".toList [] []]] := by
  rfl

end Pisi.Xml
