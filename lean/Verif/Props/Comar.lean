/-
C146: the answers of COMAR are heeded.
-/
import Verif.Spec.Comar

namespace Pisi.Comar

open Pisi.ComarSpec

theorem waitLoop_other (comar back m : Bool) (skip l : List Reply) (h : ∀ x ∈ skip, x = .other) :
    waitLoop comar back m (skip ++ l) = waitLoop comar back m l := by
  induction skip with
  | nil => rfl
  | cons x skip ih =>
    have hx := h x List.mem_cons_self
    subst hx
    simp only [List.cons_append, waitLoop]
    exact ih (fun y hy => h y (List.mem_cons_of_mem _ hy))

theorem waitLoop_inner (comar back : Bool) (l : List Reply) (inner : List Reply)
    (h : ∀ x ∈ inner, x ∈ [Reply.result, .none, .fail, .error, .denied, .other]) :
    (Good inner → waitLoop comar back true (inner ++ .resultEnd :: l) = (.ok, l)) ∧
    (¬ Good inner → (waitLoop comar back true (inner ++ .resultEnd :: l)).1 = .failed) := by
  induction inner with
  | nil =>
    refine ⟨fun _ => rfl, fun hg => absurd ?_ hg⟩
    intro x hx; cases hx
  | cons x inner ih =>
    obtain ⟨i1, i2⟩ := ih (fun y hy => h y (List.mem_cons_of_mem _ hy))
    have hx := h x List.mem_cons_self
    have hgood : ∀ y : Reply, y ≠ .fail ∧ y ≠ .error ∧ y ≠ .denied → (Good (y :: inner) ↔ Good inner) := by
      intro y hy
      constructor
      · exact fun hg z hz => hg z (List.mem_cons_of_mem _ hz)
      · intro hg z hz
        rcases List.mem_cons.1 hz with rfl | hz
        · exact hy
        · exact hg z hz
    have hbad : ∀ y : Reply, (y = .fail ∨ y = .error ∨ y = .denied) → ¬ Good (y :: inner) := by
      intro y hy hg
      obtain ⟨g1, g2, g3⟩ := hg y List.mem_cons_self
      rcases hy with rfl | rfl | rfl
      · exact g1 rfl
      · exact g2 rfl
      · exact g3 rfl
    cases x with
    | resultStart => simp at hx
    | resultEnd => simp at hx
    | result =>
      rw [hgood .result (by decide)]
      exact ⟨i1, i2⟩
    | none =>
      rw [hgood .none (by decide)]
      exact ⟨i1, i2⟩
    | other =>
      rw [hgood .other (by decide)]
      exact ⟨i1, i2⟩
    | fail => exact ⟨fun hg => absurd hg (hbad .fail (by simp)), fun _ => rfl⟩
    | error => exact ⟨fun hg => absurd hg (hbad .error (by simp)), fun _ => rfl⟩
    | denied => exact ⟨fun hg => absurd hg (hbad .denied (by simp)), fun _ => rfl⟩

theorem good_append (a b : List Reply) : Good (a ++ b) ↔ Good a ∧ Good b := by
  constructor
  · intro h
    exact ⟨fun x hx => h x (List.mem_append_left _ hx), fun x hx => h x (List.mem_append_right _ hx)⟩
  · rintro ⟨h1, h2⟩ x hx
    rcases List.mem_append.1 hx with hx | hx
    · exact h1 x hx
    · exact h2 x hx

theorem good_skip {skip : List Reply} (h : ∀ x ∈ skip, x = .other) : Good skip := by
  intro x hx
  rw [h x hx]
  decide

/-- Waiting for the answer to a request takes exactly this answer off the link,
and succeeds if and only if the answer is good. -/
theorem wait_answer (comar back : Bool) (a l : List Reply) (h : Answer a) :
    (Good a → wait comar back (a ++ l) = (.ok, l)) ∧
    (¬ Good a → (wait comar back (a ++ l)).1 = .failed) := by
  cases h with
  | one skip r hs hr =>
    have hw : wait comar back (skip ++ [r] ++ l) = waitLoop comar back false (r :: l) := by
      rw [List.append_assoc]
      exact waitLoop_other comar back false skip _ hs
    rw [hw, good_append]
    have hg : Good [r] ↔ (r ≠ .fail ∧ r ≠ .error ∧ r ≠ .denied) := by
      constructor
      · exact fun h => h r (by simp)
      · intro h x hx
        rw [List.mem_singleton] at hx
        rw [hx]; exact h
    cases r <;> simp [hg, good_skip hs, waitLoop] <;> simp at hr
  | many skip inner hs hi =>
    have hw : wait comar back (skip ++ .resultStart :: inner ++ [.resultEnd] ++ l)
        = waitLoop comar back true (inner ++ .resultEnd :: l) := by
      have : skip ++ .resultStart :: inner ++ [.resultEnd] ++ l
          = skip ++ (.resultStart :: (inner ++ .resultEnd :: l)) := by simp
      rw [this]
      show waitLoop comar back false _ = _
      rw [waitLoop_other comar back false skip _ hs]
      rfl
    rw [hw]
    have hg : Good (skip ++ .resultStart :: inner ++ [.resultEnd]) ↔ Good inner := by
      rw [good_append, good_append]
      constructor
      · exact fun h x hx => h.1.2 x (List.mem_cons_of_mem _ hx)
      · intro h
        refine ⟨⟨good_skip hs, ?_⟩, ?_⟩
        · intro x hx
          rcases List.mem_cons.1 hx with rfl | hx
          · decide
          · exact h x hx
        · intro x hx
          rw [List.mem_singleton] at hx
          subst hx; decide
    rw [hg]
    exact waitLoop_inner comar back l inner hi

variable {σ : Type}

theorem ask_spec (S : Server σ) (hS : Answers S) (comar : Bool) (l : Link σ) (r : Request)
    (hl : l.unread = []) :
    (Good (S.handle l.srv r).2 →
      ask S comar l r = (.ok, ⟨(S.handle l.srv r).1, [], r :: l.sent⟩)) ∧
    (¬ Good (S.handle l.srv r).2 →
      (ask S comar l r).1 = .failed ∧ (ask S comar l r).2.sent = r :: l.sent) := by
  obtain ⟨h1, h2⟩ := wait_answer comar (S.back (S.handle l.srv r).1) (S.handle l.srv r).2 []
    (hS l.srv r)
  rw [List.append_nil] at h1 h2
  constructor
  · intro hg
    simp [ask, hl, h1 hg]
  · intro hg
    simp [ask, hl, h2 hg]

theorem _root_.Pisi.ComarSpec.Goes.append {S : Server σ} {a b : List Request} : ∀ {s s' t : σ},
    Goes S s a s' → Goes S s' b t → Goes S s (a ++ b) t := by
  induction a with
  | nil => intro s s' t h1 h2; cases h1; exact h2
  | cons r a ih =>
    intro s s' t h1 h2
    cases h1 with
    | cons _ _ _ _ hg h3 => exact .cons _ _ _ _ hg (ih h3 h2)

theorem _root_.Pisi.ComarSpec.Goes.det {S : Server σ} {a : List Request} : ∀ {s t u : σ},
    Goes S s a t → Goes S s a u → t = u := by
  induction a with
  | nil => intro s t u h1 h2; cases h1; cases h2; rfl
  | cons r a ih =>
    intro s t u h1 h2
    cases h1 with
    | cons _ _ _ _ _ h3 => cases h2 with
      | cons _ _ _ _ _ h4 => exact ih h3 h4

/-- The outcome of a conversation about the requests `rs`: either all of them
were sent, in this order, and answered well; or the requests up to the first
one that was not answered well were sent, and it failed. -/
def Conversation (S : Server σ) (l : Link σ) (rs : List Request) (o : End × Link σ) : Prop :=
  (∃ s', Goes S l.srv rs s' ∧ o = (.ok, ⟨s', [], rs.reverse ++ l.sent⟩)) ∨
  (∃ pre r post s', rs = pre ++ r :: post ∧ Goes S l.srv pre s' ∧
    ¬ Good (S.handle s' r).2 ∧ o.1 = .failed ∧ o.2.sent = r :: (pre.reverse ++ l.sent))

theorem ask_conversation (S : Server σ) (hS : Answers S) (comar : Bool) (l : Link σ) (r : Request)
    (hl : l.unread = []) : Conversation S l [r] (ask S comar l r) := by
  obtain ⟨h1, h2⟩ := ask_spec S hS comar l r hl
  by_cases hg : Good (S.handle l.srv r).2
  · exact Or.inl ⟨_, .cons _ _ _ _ hg (.nil _), h1 hg⟩
  · exact Or.inr ⟨[], r, [], l.srv, rfl, .nil _, hg, (h2 hg).1, (h2 hg).2⟩

/-- Going on with a link after a good end. -/
def andThen (o : End × Link σ) (f : Link σ → End × Link σ) : End × Link σ :=
  match o with
  | (.failed, l') => (.failed, l')
  | (.ok, l') => f l'

theorem conversation_append {S : Server σ} {l : Link σ} {a b : List Request} {o : End × Link σ}
    (f : Link σ → End × Link σ) (h : Conversation S l a o)
    (hf : ∀ l', l'.unread = [] → Conversation S l' b (f l')) :
    Conversation S l (a ++ b) (andThen o f) := by
  rcases h with ⟨s', h1, rfl⟩ | ⟨pre, r, post, s', h1, h2, h3, h4, h5⟩
  · simp only [andThen]
    rcases hf ⟨s', [], a.reverse ++ l.sent⟩ rfl with ⟨s2, g1, g2⟩ | ⟨pre, r, post, s2, g1, g2, g3, g4, g5⟩
    · left
      refine ⟨s2, h1.append g1, ?_⟩
      rw [g2]
      simp
    · right
      refine ⟨a ++ pre, r, post, s2, by rw [g1]; simp, h1.append g2, g3, g4, ?_⟩
      rw [g5]
      simp
  · right
    obtain ⟨e, l'⟩ := o
    simp only [] at h4 h5
    subst h4
    exact ⟨pre, r, post ++ b, s', by rw [h1]; simp, h2, h3, rfl, h5⟩

theorem askAll_conversation (S : Server σ) (hS : Answers S) (rs : List Request) :
    ∀ l : Link σ, l.unread = [] → Conversation S l rs (askAll S l rs) := by
  induction rs with
  | nil =>
    intro l hl
    obtain ⟨s, u, se⟩ := l
    simp only [] at hl
    subst hl
    exact Or.inl ⟨s, .nil _, rfl⟩
  | cons r rs ih =>
    intro l hl
    have := conversation_append (fun l' => askAll S l' rs)
      (ask_conversation S hS false l r hl) (fun l' hl' => ih l' hl')
    simp only [andThen] at this
    simp only [askAll]
    exact this

theorem nil_conversation (S : Server σ) (l : Link σ) (hl : l.unread = []) :
    Conversation S l [] (.ok, l) := by
  obtain ⟨s, u, se⟩ := l
  simp only [] at hl
  subst hl
  exact Or.inl ⟨s, .nil _, rfl⟩

theorem postInstall_conversation (S : Server σ) (hS : Answers S) (s : σ) (p : Str)
    (scripts : List Script) :
    Conversation S (connect s) (installRequests p scripts)
      (postInstall S (connect s) p scripts) := by
  unfold installRequests
  have h1 := askAll_conversation S hS (scripts.map (fun s => Request.register s.om p s.file))
    (connect s) rfl
  have hany : scripts.any (fun s => decide (s.om = systemPackage)) = true ↔
      ∃ s ∈ scripts, s.om = ['S','y','s','t','e','m','.','P','a','c','k','a','g','e'] := by
    rw [List.any_eq_true]
    constructor
    · rintro ⟨x, hx, h⟩; exact ⟨x, hx, of_decide_eq_true h⟩
    · rintro ⟨x, hx, h⟩; exact ⟨x, hx, decide_eq_true h⟩
  have h2 : ∀ l2 : Link σ, l2.unread = [] → Conversation S l2
      (if ∃ s ∈ scripts, s.om = ['S','y','s','t','e','m','.','P','a','c','k','a','g','e']
        then [.postInstall p] else [])
      (if scripts.any (fun s => decide (s.om = systemPackage)) then
        ask S (decide (p = comarName)) l2 (.postInstall p) else (.ok, l2)) := by
    intro l2 hl2
    by_cases hc : ∃ s ∈ scripts, s.om = ['S','y','s','t','e','m','.','P','a','c','k','a','g','e']
    · rw [if_pos hc, if_pos (hany.2 hc)]
      exact ask_conversation S hS _ l2 _ hl2
    · rw [if_neg hc, if_neg (fun h => hc (hany.1 h))]
      exact nil_conversation S l2 hl2
  rw [List.append_assoc]
  exact conversation_append
    (fun l1 => andThen (ask S false l1 (.setup p)) (fun l2 =>
        if scripts.any (fun s => decide (s.om = systemPackage)) then
          ask S (decide (p = comarName)) l2 (.postInstall p)
        else (.ok, l2))) h1
    (fun l1 hl1 => conversation_append _ (ask_conversation S hS false l1 (.setup p) hl1) h2)

theorem ok_iff {S : Server σ} {l : Link σ} {rs : List Request} {o : End × Link σ}
    (h : Conversation S l rs o) : o.1 = .ok ↔ ∃ s', Goes S l.srv rs s' := by
  constructor
  · intro ho
    rcases h with ⟨s', h1, _⟩ | ⟨_, _, _, _, _, _, _, h4, _⟩
    · exact ⟨s', h1⟩
    · rw [ho] at h4; cases h4
  · rintro ⟨s', hg⟩
    rcases h with ⟨_, _, rfl⟩ | ⟨pre, r, post, t, h1, h2, h3, _, _⟩
    · rfl
    · exfalso
      subst h1
      have key : ∀ (pre : List Request) (s t u : σ), Goes S s pre t →
          Goes S s (pre ++ r :: post) u → Good (S.handle t r).2 := by
        intro pre
        induction pre with
        | nil =>
          intro s t u g1 g2
          cases g1
          cases g2 with
          | cons _ _ _ _ g _ => exact g
        | cons q pre ih =>
          intro s t u g1 g2
          cases g1 with
          | cons _ _ _ _ _ g3 => cases g2 with
            | cons _ _ _ _ _ g4 => exact ih _ _ _ g3 g4
      exact h3 (key pre _ _ _ h2 hg)

/-- **C146, installing.**  With a server that answers every request, the
configuration of an installed package succeeds if and only if each request is
answered well; the requests are the registration of its scripts in order, the
call of the handlers and, if it has a script of its own, the call of this;
then exactly these have been sent, and every reply was read. -/
theorem post_install_exact (S : Server σ) (hS : Answers S) (s : σ) (p : Str)
    (scripts : List Script) :
    ((postInstall S (connect s) p scripts).1 = .ok ↔
      ∃ s', Goes S s (installRequests p scripts) s') ∧
    (∀ s', Goes S s (installRequests p scripts) s' →
      postInstall S (connect s) p scripts
        = (.ok, ⟨s', [], (installRequests p scripts).reverse⟩)) := by
  have h := postInstall_conversation S hS s p scripts
  refine ⟨ok_iff h, fun s' hg => ?_⟩
  have hok := (ok_iff h).2 ⟨s', hg⟩
  rcases h with ⟨t, h1, h2⟩ | ⟨_, _, _, _, _, _, _, h4, _⟩
  · have := Goes.det h1 hg
    subst this
    rw [h2]
    simp [connect]
  · rw [hok] at h4; cases h4

/-- When the configuration of an installed package fails, nothing was sent
after the first request that was not answered well. -/
theorem post_install_stops (S : Server σ) (hS : Answers S) (s : σ) (p : Str)
    (scripts : List Script) (h : (postInstall S (connect s) p scripts).1 = .failed) :
    ∃ pre r post s', installRequests p scripts = pre ++ r :: post ∧ Goes S s pre s' ∧
      ¬ Good (S.handle s' r).2 ∧
      (postInstall S (connect s) p scripts).2.sent = r :: pre.reverse := by
  rcases postInstall_conversation S hS s p scripts with ⟨t, _, h2⟩ | ⟨pre, r, post, s', h1, h2, h3, _, h5⟩
  · rw [h2] at h; cases h
  · exact ⟨pre, r, post, s', h1, h2, h3, by rw [h5]; simp [connect]⟩

/-- **C146, removing.**  With a server that answers every request, the
preparation of a removal succeeds if and only if the script of the package, the
handlers and the removal of its scripts are each answered well, in this order;
then exactly these have been sent; otherwise nothing after the first one that
was not. -/
theorem pre_remove_exact (S : Server σ) (hS : Answers S) (s : σ) (p : Str) :
    ((preRemove S (connect s) p).1 = .ok ↔ ∃ s', Goes S s (removeRequests p) s') ∧
    (∀ s', Goes S s (removeRequests p) s' →
      preRemove S (connect s) p = (.ok, ⟨s', [], (removeRequests p).reverse⟩)) ∧
    ((preRemove S (connect s) p).1 = .failed →
      ∃ pre r post s', removeRequests p = pre ++ r :: post ∧ Goes S s pre s' ∧
        ¬ Good (S.handle s' r).2 ∧ (preRemove S (connect s) p).2.sent = r :: pre.reverse) := by
  have h := askAll_conversation S hS (removeRequests p) (connect s) rfl
  refine ⟨ok_iff h, fun s' hg => ?_, fun hf => ?_⟩
  · have hok := (ok_iff h).2 ⟨s', hg⟩
    rcases h with ⟨t, h1, h2⟩ | ⟨_, _, _, _, _, _, _, h4, _⟩
    · have := Goes.det h1 hg
      subst this
      show askAll S (connect s) (removeRequests p) = _
      rw [h2]
      simp [connect]
    · rw [hok] at h4; cases h4
  · rcases h with ⟨t, _, h2⟩ | ⟨pre, r, post, s', h1, h2, h3, _, h5⟩
    · have hf' : (askAll S (connect s) (removeRequests p)).1 = .failed := hf
      rw [h2] at hf'; cases hf'
    · refine ⟨pre, r, post, s', h1, h2, h3, ?_⟩
      show (askAll S (connect s) (removeRequests p)).2.sent = _
      rw [h5]
      simp [connect]

/-- When the server closes the link before it answers, a request fails, but for
the script of the package `comar` itself when the server comes back. -/
theorem closed_link (S : Server σ) (comar : Bool) (s : σ) (r : Request)
    (h : ∀ x ∈ (S.handle s r).2, x = .other) :
    ((ask S comar (connect s) r).1 = .ok ↔
      comar = true ∧ S.back (S.handle s r).1 = true) := by
  have hw := waitLoop_other comar (S.back (S.handle s r).1) false (S.handle s r).2 [] h
  rw [List.append_nil] at hw
  simp only [ask, wait, connect, List.nil_append, hw, waitLoop]
  cases comar <;> cases S.back (S.handle s r).1 <;> simp

/-! ### A server that meets the hypotheses -/

/-- A server that keeps the registered scripts; handlers answer with several
results, and a script of an unregistered package is not found. -/
def exServer : Server (List (Str × Str)) where
  handle s
    | .register om p _ => ((om, p) :: s, [.result])
    | .setup _ => (s, [.other, .resultStart, .result, .none, .resultEnd])
    | .postInstall p =>
      (s, if (systemPackage, p) ∈ s then [.result] else [.fail])
    | .preRemove p => (s, if (systemPackage, p) ∈ s then [.result] else [.none])
    | .cleanup _ => (s, [.resultStart, .resultEnd])
    | .unregister p => (s.filter (fun x => decide (x.2 ≠ p)), [.result])
  back _ := true

theorem exServer_answers : Answers exServer := by
  intro s r
  cases r with
  | register om p f => exact .one [] .result (by simp) (by simp)
  | setup p => exact .many [.other] [.result, .none] (by simp) (by decide)
  | postInstall p =>
    simp only [exServer]
    by_cases h : (systemPackage, p) ∈ s
    · rw [if_pos h]; exact .one [] .result (by simp) (by simp)
    · rw [if_neg h]; exact .one [] .fail (by simp) (by simp)
  | preRemove p =>
    simp only [exServer]
    by_cases h : (systemPackage, p) ∈ s
    · rw [if_pos h]; exact .one [] .result (by simp) (by simp)
    · rw [if_neg h]; exact .one [] .none (by simp) (by simp)
  | cleanup p => exact .many [] [] (by simp) (by simp)
  | unregister p => exact .one [] .result (by simp) (by simp)

/-- Installing a package with two scripts succeeds, and removing it again. -/
example : (postInstall exServer (connect []) ['a'] [⟨['N'], ['n']⟩, ⟨systemPackage, ['s']⟩]).1 = .ok ∧
    (postInstall exServer (connect []) ['a'] [⟨['N'], ['n']⟩, ⟨systemPackage, ['s']⟩]).2.sent.length
      = 4 ∧
    (preRemove exServer (connect [(systemPackage, ['a'])]) ['a']).2.srv = [] := by decide

/-- A server that denies everything: the first request fails. -/
example : (postInstall (σ := Unit) ⟨fun s _ => (s, [.denied]), fun _ => true⟩ (connect ()) ['a']
    [⟨['N'], ['n']⟩]).1 = .failed ∧
    (postInstall (σ := Unit) ⟨fun s _ => (s, [.denied]), fun _ => true⟩ (connect ()) ['a']
    [⟨['N'], ['n']⟩]).2.sent = [.register ['N'] ['a'] ['n']] := by decide

/-- The package `comar` restarts the server in its script. -/
example : (ask (σ := Unit) ⟨fun s _ => (s, []), fun _ => true⟩ true (connect ()) (.postInstall comarName)).1
    = .ok := by decide

/-- Waiting reads up to the reply that reports a failure, and leaves what
comes after it. -/
theorem wait_fails_left (comar back m : Bool) (skip rest : List Reply) (b : Reply)
    (hs : ∀ r ∈ skip, r = .other) (hb : b = .fail ∨ b = .error ∨ b = .denied) :
    waitLoop comar back m (skip ++ b :: rest) = (.failed, rest) := by
  induction skip with
  | nil => rcases hb with rfl | rfl | rfl <;> rfl
  | cons r skip ih =>
    rw [hs r (List.mem_cons_self ..)]
    exact ih (fun x hx => hs x (List.mem_cons_of_mem _ hx))

/-- Replies that were left unread are taken for the answer to the next
request, whatever the server answers to it. -/
theorem stale_reply (S : Server σ) (comar : Bool) (s : σ) (rest : List Reply) (sent : List Request)
    (r : Request) :
    (ask S comar ⟨s, .result :: rest, sent⟩ r).1 = .ok ∧
    (ask S comar ⟨s, .fail :: rest, sent⟩ r).1 = .failed := ⟨rfl, rfl⟩

end Pisi.Comar
