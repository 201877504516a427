import Verif.Model.ArFile
import Verif.Spec.ArFile
import Verif.Lemmas.ListAux

/-!
# Cleaning the time stamps in static libraries (C135)
-/
namespace Pisi.Ar
open Pisi.ArSpec

/-! ### Lines -/

theorem lines_flatten (s : Str) : (lines s).flatten = s := by
  induction s with
  | nil => rfl
  | cons c s ih =>
    unfold lines
    by_cases hc : c = '\n'
    · rw [if_pos hc, List.flatten_cons, ih]; rfl
    · rw [if_neg hc]
      cases h : lines s with
      | nil => rw [h] at ih; simp at ih; simp [ih]
      | cons l ls => rw [h] at ih; simpa using ih

theorem lines_append (a b : Str) : lines (a ++ '\n' :: b) = lines (a ++ ['\n']) ++ lines b := by
  induction a with
  | nil => simp [lines]
  | cons c a ih =>
    simp only [List.cons_append]
    rw [lines, lines, ih]
    by_cases hc : c = '\n'
    · rw [if_pos hc, if_pos hc]; rfl
    · rw [if_neg hc, if_neg hc]
      have : lines (a ++ ['\n']) ≠ [] := by
        intro h
        have := lines_flatten (a ++ ['\n'])
        rw [h] at this
        simp at this
      cases h : lines (a ++ ['\n']) with
      | nil => exact absurd h this
      | cons l ls => rfl

theorem lines_one (a : Str) (h : '\n' ∉ a) : lines (a ++ ['\n']) = [a ++ ['\n']] := by
  induction a with
  | nil => rfl
  | cons c a ih =>
    simp only [List.mem_cons, not_or] at h
    rw [List.cons_append, lines, if_neg (fun e => h.1 e.symm), ih h.2]

theorem lines_infix (s l : Str) (h : l ∈ lines s) : l <:+: s := by
  obtain ⟨p, q, e⟩ := List.append_of_mem h
  refine ⟨p.flatten, q.flatten, ?_⟩
  have := lines_flatten s
  rw [e] at this
  simpa using this

/-! ### The mark -/

theorem rfindMark_none {s : Str} (h : ¬ [' ', '`'] <:+: s) : rfindMark s = none := by
  induction s with
  | nil => rfl
  | cons c s ih =>
    have h1 : ¬ [' ', '`'] <:+: s := fun e => h (e.trans (List.suffix_cons c s).isInfix)
    rw [rfindMark, ih h1]
    dsimp only
    rw [if_neg]
    rintro ⟨rfl, h2⟩
    cases s with
    | nil => simp at h2
    | cons d s =>
      simp at h2
      subst h2
      exact h ⟨[], s, rfl⟩

theorem cleanLine_plain {s : Str} (h : ¬ [' ', '`'] <:+: s) : cleanLine s = s := by
  rw [cleanLine, rfindMark_none h]

theorem rfindMark_last (a : Str) : rfindMark (a ++ [' ', '`', '\n']) = some a.length := by
  induction a with
  | nil => rfl
  | cons c a ih => rw [List.cons_append, rfindMark, ih]; rfl

theorem clean_plain {s : Str} (h : ¬ [' ', '`'] <:+: s) : (lines s).flatMap cleanLine = s := by
  have : (lines s).flatMap cleanLine = (lines s).flatten := by
    rw [List.flatMap_def]
    congr 1
    rw [List.map_congr_left (g := id)]
    · simp
    · intro l hl
      exact cleanLine_plain fun e => h (e.trans (lines_infix s l hl))
  rw [this, lines_flatten]

/-- Where the last line begins. -/
theorem split_last (s : Str) : ∃ a b, s = a ++ b ∧ '\n' ∉ b ∧ (a = [] ∨ ∃ a', a = a' ++ ['\n']) := by
  induction s using snoc_induction with
  | h0 => exact ⟨[], [], rfl, by simp, .inl rfl⟩
  | hs l c ih =>
    by_cases hc : c = '\n'
    · exact ⟨l ++ [c], [], by simp, by simp, .inr ⟨l, by rw [hc]⟩⟩
    · obtain ⟨a, b, h1, h2, h3⟩ := ih
      refine ⟨a, b ++ [c], by rw [h1, List.append_assoc], ?_, h3⟩
      simp only [List.mem_append, List.mem_singleton, not_or]
      exact ⟨h2, fun e => hc e.symm⟩

/-! ### Headers -/

/-- A line that ends in a header. -/
theorem cleanLine_header (d : Str) (m : Member) (h : m.WF) (hs : m.size.getLast? = some ' ') :
    cleanLine (d ++ m.header) = d ++ m.zeroed.header := by
  obtain ⟨⟨n1, n2, n3⟩, ⟨s1, s2⟩, ⟨u1, u2⟩, ⟨g1, g2⟩, ⟨o1, o2⟩, ⟨z1, z2⟩, _⟩ := h
  obtain ⟨z, hz⟩ : ∃ z, m.size = z ++ [' '] := by
    rcases List.eq_nil_or_concat m.size with e | ⟨z, b, e⟩
    · rw [e] at hs; simp at hs
    · rw [List.concat_eq_append] at e
      rw [e, List.getLast?_concat] at hs
      exact ⟨z, by rw [e, Option.some.inj hs]⟩
  have hz9 : z.length = 9 := by rw [hz] at z1; simpa using z1
  have e1 : d ++ m.header = (d ++ m.name ++ m.stamp ++ [' ', ' '] ++ m.uid ++ m.gid ++ m.mode ++ z) ++ [' ', '`', '\n'] := by
    simp [Member.header, hz]
  have hl : (d ++ m.name ++ m.stamp ++ [' ', ' '] ++ m.uid ++ m.gid ++ m.mode ++ z).length = d.length + 57 := by
    simp only [List.length_append, n1, s1, u1, g1, o1, hz9, List.length_cons, List.length_nil]
  rw [cleanLine]
  have e2 : rfindMark (d ++ m.header) = some (d.length + 57) := by rw [e1, rfindMark_last, hl]
  rw [e2]
  dsimp only
  have hlen : (d ++ m.header).length = d.length + 60 := by
    rw [e1, List.length_append, hl]; simp
  have b1 : bound (d ++ m.header).length (((d.length + 57 : Nat) : Int) - 57) = d.length := by
    unfold bound; rw [if_neg (by omega)]; omega
  have b2 : bound (d ++ m.header).length (((d.length + 57 : Nat) : Int) + 2) = d.length + 59 := by
    unfold bound; rw [if_neg (by omega)]; omega
  have b3 : bound (d ++ m.header).length (((d.length + 57 : Nat) : Int) - 41) = d.length + 16 := by
    unfold bound; rw [if_neg (by omega)]; omega
  have b4 : bound (d ++ m.header).length (((d.length + 57 : Nat) : Int) - 31) = d.length + 26 := by
    unfold bound; rw [if_neg (by omega)]; omega
  rw [slice, b1, b2, b3, b4]
  rw [if_pos]
  · have t1 : (d ++ m.header).take (d.length + 16) = d ++ m.name := by
      rw [Member.header, ← List.append_assoc, List.take_left' (by simp [n1])]
    have t2 : (d ++ m.header).drop (d.length + 26) = [' ', ' '] ++ (m.uid ++ (m.gid ++ (m.mode ++ (m.size ++ ['`', '\n'])))) := by
      have : d ++ m.header = (d ++ m.name ++ m.stamp) ++ ([' ', ' '] ++ (m.uid ++ (m.gid ++ (m.mode ++ (m.size ++ ['`', '\n']))))) := by
        simp [Member.header]
      rw [this, List.drop_left' (by simp [n1, s1])]
    rw [t1, t2]
    simp [Member.header, Member.zeroed, zeros, List.replicate]
  · rw [List.drop_take, List.drop_left' rfl]
    have : d.length + 59 - d.length = 16 + 43 := by omega
    rw [this, Member.header, List.take_append]
    rw [List.take_of_length_le (by omega)]
    exact List.mem_append_left _ n3

theorem header_newline (m : Member) (h : m.WF) : ∃ a, m.header = a ++ ['\n'] ∧ '\n' ∉ a := by
  obtain ⟨⟨n1, n2, n3⟩, ⟨s1, s2⟩, ⟨u1, u2⟩, ⟨g1, g2⟩, ⟨o1, o2⟩, ⟨z1, z2⟩, _⟩ := h
  refine ⟨m.name ++ (m.stamp ++ ([' ', ' '] ++ (m.uid ++ (m.gid ++ (m.mode ++ (m.size ++ ['`'])))))), by simp [Member.header], ?_⟩
  simp [n2.1, s2.1, u2.1, g2.1, o2.1, z2.1]

/-- The members after some data. -/
theorem clean_members (ms : List Member) (d : Str) (hd : ¬ [' ', '`'] <:+: d)
    (h : ∀ m ∈ ms, m.WF ∧ m.size.getLast? = some ' ' ∧ ¬ [' ', '`'] <:+: m.data) :
    (lines (d ++ ms.flatMap fun m => m.header ++ m.data)).flatMap cleanLine
      = d ++ (ms.map Member.zeroed).flatMap fun m => m.header ++ m.data := by
  induction ms generalizing d with
  | nil => simpa using clean_plain hd
  | cons m ms ih =>
    obtain ⟨h1, h2, h3⟩ := h m (by simp)
    have ih' := ih m.data h3 fun x hx => h x (by simp [hx])
    obtain ⟨a, b, e, hb, ha⟩ := split_last d
    obtain ⟨t, ht, htn⟩ := header_newline m h1
    have hbt : '\n' ∉ b ++ t := by simp [hb, htn]
    have hline : (lines (b ++ m.header ++ (m.data ++ ms.flatMap fun m => m.header ++ m.data))).flatMap cleanLine
        = b ++ m.zeroed.header ++ (m.data ++ (ms.map Member.zeroed).flatMap fun m => m.header ++ m.data) := by
      have e3 : b ++ m.header ++ (m.data ++ ms.flatMap fun m => m.header ++ m.data)
          = (b ++ t) ++ '\n' :: (m.data ++ ms.flatMap fun m => m.header ++ m.data) := by
        rw [ht]; simp
      rw [e3, lines_append, lines_one _ hbt, List.flatMap_append, ih']
      have : (b ++ t) ++ ['\n'] = b ++ m.header := by rw [ht, List.append_assoc]
      rw [this]
      simp only [List.flatMap_cons, List.flatMap_nil, List.append_nil]
      rw [cleanLine_header b m h1 h2]
    have hz : m.zeroed.data = m.data := rfl
    rcases ha with rfl | ⟨a', rfl⟩
    · rw [List.nil_append] at e
      subst e
      simp only [List.flatMap_cons, List.map_cons, hz]
      have e4 : d ++ (m.header ++ m.data ++ ms.flatMap fun m => m.header ++ m.data)
          = d ++ m.header ++ (m.data ++ ms.flatMap fun m => m.header ++ m.data) := by simp
      rw [e4, hline]; simp
    · have e4 : d ++ ((m :: ms).flatMap fun m => m.header ++ m.data)
          = a' ++ '\n' :: (b ++ m.header ++ (m.data ++ ms.flatMap fun m => m.header ++ m.data)) := by
        rw [e]; simp
      have hpa : ¬ [' ', '`'] <:+: a' ++ ['\n'] := by
        intro hh
        exact hd (by rw [e]; exact hh.trans (List.prefix_append _ _).isInfix)
      rw [e4, lines_append, List.flatMap_append, clean_plain hpa, hline, e]
      simp [hz]

/-! ### C135: cleaning changes time stamps only -/

theorem isAr_bytes (ms : List Member) : isAr (bytes ms) = true := by
  have e : (bytes ms).takeWhile (· ≠ '\n') = ['!', '<', 'a', 'r', 'c', 'h', '>'] := by
    unfold bytes magic
    simp [List.takeWhile]
  rw [isAr, e]
  decide

/-- The full statement: cleaning a library gives the same library with the time stamps set to zero. -/
def CleanFull : Prop := ∀ ms : List Member, (∀ m ∈ ms, m.WF) → clean (bytes ms) = bytes (ms.map Member.zeroed)

/-- Cleaning a library gives the same library with the time stamps set to zero, if no member contains a blank before a
backquote and the sizes have at most nine digits.  Missing for the full statement: other members, see `clean_refuted`. -/
theorem clean_partial (ms : List Member) (h : ∀ m ∈ ms, m.WF ∧ m.size.getLast? = some ' ' ∧ ¬ [' ', '`'] <:+: m.data) :
    clean (bytes ms) = bytes (ms.map Member.zeroed) := by
  rw [clean, if_pos (isAr_bytes ms)]
  exact clean_members ms magic (by decide) h

/-- Two libraries that differ in time stamps only are the same afterwards, and have the same hash. -/
theorem clean_same {H : Type} (sha : Str → H) (f : Str) (hf : ∃ b, f = b ++ ['.', 'a']) (ms ms' : List Member)
    (h : ∀ m ∈ ms ++ ms', m.WF ∧ m.size.getLast? = some ' ' ∧ ¬ [' ', '`'] <:+: m.data) (hs : SameButStamps ms ms') :
    hashed sha f (bytes ms) = hashed sha f (bytes ms') := by
  obtain ⟨b, rfl⟩ := hf
  have e : (b ++ ['.', 'a']).drop ((b ++ ['.', 'a']).length - 2) = ['.', 'a'] := by
    rw [List.length_append]; exact List.drop_left' (by simp)
  rw [hashed, hashed, if_pos e, if_pos e, clean_partial ms fun m hm => h m (by simp [hm]),
    clean_partial ms' fun m hm => h m (by simp [hm]), hs]

/-- The hash is the one of what is left in the file. -/
theorem hashed_left {H : Type} (sha : Str → H) (f c : Str) : (hashed sha f c).1 = sha (hashed sha f c).2 := by
  unfold hashed; split <;> rfl

/-- Other files are left alone. -/
theorem hashed_other {H : Type} (sha : Str → H) (f c : Str) (h : ¬ ∃ b, f = b ++ ['.', 'a']) : hashed sha f c = (sha c, c) := by
  unfold hashed
  rw [if_neg]
  intro e
  exact h ⟨f.take (f.length - 2), by rw [← e, List.take_append_drop]⟩

/-- A file that does not begin like a library is left alone. -/
theorem clean_other (c : Str) (h : isAr c = false) : clean c = c := by rw [clean, h]; rfl

theorem zeroed_wf {m : Member} (h : m.WF) : m.zeroed.WF :=
  ⟨h.name, ⟨by simp [Member.zeroed], by simp [Member.zeroed, Plain]⟩, h.uid, h.gid, h.mode, h.size, h.data⟩

/-- Cleaning twice is cleaning once. -/
theorem clean_twice (ms : List Member) (h : ∀ m ∈ ms, m.WF ∧ m.size.getLast? = some ' ' ∧ ¬ [' ', '`'] <:+: m.data) :
    clean (clean (bytes ms)) = clean (bytes ms) := by
  rw [clean_partial ms h, clean_partial]
  · rw [List.map_map]; rfl
  · intro m hm
    obtain ⟨x, hx, rfl⟩ := List.mem_map.1 hm
    exact ⟨zeroed_wf (h x hx).1, (h x hx).2⟩

/-- A member `a.o` with this data. -/
def member (t : Str) (n : Nat) (data : Str) : Member where
  name := ['a', '.', 'o', '/'] ++ List.replicate 12 ' '
  stamp := t
  uid := ['0', ' ', ' ', ' ', ' ', ' ']
  gid := ['0', ' ', ' ', ' ', ' ', ' ']
  mode := ['1', '0', '0', '6', '4', '4', ' ', ' ']
  size := Nat.toDigits 10 n ++ List.replicate (10 - (Nat.toDigits 10 n).length) ' '
  data := data

def stamp1 : Str := ['1', '1', '6', '3', '6', '2', '1', '0', '0', '7']

/-- A message in a program. -/
def message : Str := ['u', 's', 'e', ' ', '/', 't', 'm', 'p', ' ', '`', 'x', '`']

theorem member_wf : (member stamp1 12 message).WF :=
  ⟨by refine ⟨?_, ⟨?_, ?_⟩, ?_⟩ <;> decide, by refine ⟨?_, ?_, ?_⟩ <;> decide, by refine ⟨?_, ?_, ?_⟩ <;> decide,
    by refine ⟨?_, ?_, ?_⟩ <;> decide, by refine ⟨?_, ?_, ?_⟩ <;> decide, by refine ⟨?_, ?_, ?_⟩ <;> decide +kernel,
    ⟨12, 8, by decide +kernel, by decide⟩⟩

/-- A static library is recognised by its first line, whatever white space is around the magic word in it. -/
theorem isAr_space (a b r : Str) (ha : ∀ c ∈ a, Pisi.isSpace c = true ∧ c ≠ '\n') (hb : ∀ c ∈ b, Pisi.isSpace c = true ∧ c ≠ '\n') :
    isAr (a ++ ['!', '<', 'a', 'r', 'c', 'h', '>'] ++ b ++ '\n' :: r) = true := by
  have h1 : (a ++ ['!', '<', 'a', 'r', 'c', 'h', '>'] ++ b ++ '\n' :: r).takeWhile (· ≠ '\n')
      = a ++ ['!', '<', 'a', 'r', 'c', 'h', '>'] ++ b := by
    rw [List.takeWhile_append_of_pos]
    · simp
    · intro c hc
      simp only [List.mem_append] at hc
      rcases hc with (hc | hc) | hc
      · simp [(ha c hc).2]
      · revert hc; revert c; decide
      · simp [(hb c hc).2]
  unfold isAr
  rw [h1, decide_eq_true_eq]
  unfold Pack.strip
  rw [List.append_assoc, List.dropWhile_append_of_pos (fun c hc => (ha c hc).1)]
  have h2 : (['!', '<', 'a', 'r', 'c', 'h', '>'] ++ b).dropWhile Pisi.isSpace = ['!', '<', 'a', 'r', 'c', 'h', '>'] ++ b := rfl
  rw [h2]
  unfold Path.rstrip
  rw [List.reverse_append, List.dropWhile_append_of_pos (fun c hc => (hb c (by simpa using hc)).1)]
  rfl

/-- A line of at least 59 characters in which the mark comes within the first 57 is left alone: the bounds of the slice that
is searched are counted from the end then. -/
theorem cleanLine_early (s : Str) (pos : Nat) (h : rfindMark s = some pos) (hp : pos < 57) (hl : 59 ≤ s.length) :
    cleanLine s = s := by
  have h1 : bound s.length ((pos : Int) - 57) = pos + s.length - 57 := by
    unfold bound
    rw [if_pos (by omega)]
    omega
  have h2 : bound s.length ((pos : Int) + 2) = pos + 2 := by
    unfold bound
    rw [if_neg (by omega)]
    omega
  have h3 : slice s ((pos : Int) - 57) ((pos : Int) + 2) = [] := by
    unfold slice
    rw [h1, h2]
    apply List.drop_eq_nil_of_le
    rw [List.length_take]
    omega
  unfold cleanLine
  rw [h]
  simp [h3]

example : cleanLine (['/', ' ', '`'] ++ List.replicate 60 'x') = ['/', ' ', '`'] ++ List.replicate 60 'x' :=
  cleanLine_early _ 1 (by decide +kernel) (by decide) (by decide)
example : isAr (['!', '<', 'a', 'r', 'c', 'h', '>'] ++ ['\r'] ++ ['\n']) = true := by decide

/-- The full statement is false: data that look like the end of a header are overwritten; the file even changes its size. -/
theorem clean_refuted : ¬ CleanFull ∧
    (clean (bytes [member stamp1 12 message])).length ≠ (bytes [member stamp1 12 message]).length := by
  refine ⟨fun h => ?_, by decide +kernel⟩
  exact absurd (h [member stamp1 12 message] (by simpa using member_wf)) (by decide +kernel)

example : SameButStamps [member stamp1 2 ['h', '\n'], member stamp1 2 ['x', 'y']]
    [member zeros 2 ['h', '\n'], member stamp1 2 ['x', 'y']] := by
  unfold SameButStamps; decide +kernel
example : (member stamp1 2 ['h', '\n']).WF ∧ (member stamp1 2 ['h', '\n']).size.getLast? = some ' ' ∧
    ¬ [' ', '`'] <:+: (member stamp1 2 ['h', '\n']).data :=
  ⟨⟨by refine ⟨?_, ⟨?_, ?_⟩, ?_⟩ <;> decide, by refine ⟨?_, ?_, ?_⟩ <;> decide, by refine ⟨?_, ?_, ?_⟩ <;> decide,
    by refine ⟨?_, ?_, ?_⟩ <;> decide, by refine ⟨?_, ?_, ?_⟩ <;> decide, by refine ⟨?_, ?_, ?_⟩ <;> decide +kernel,
    ⟨2, 9, by decide +kernel, by decide⟩⟩, by decide +kernel, by decide⟩
example : isAr ['#', '!', '\n'] = false := by decide

end Pisi.Ar
