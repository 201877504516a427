import Verif.Spec.Console

/-!
# C207: what is shown on the console
-/
namespace Pisi.Console

theorem screen_append (s s' : Str) (h : '\x1b' ∉ s) : screen false (s ++ s') = s ++ screen false s' := by
  induction s with
  | nil => rfl
  | cons c s ih =>
    have hc : c ≠ '\x1b' := fun e => h (by simp [e])
    rw [List.cons_append, screen, if_neg hc, ih (fun hm => h (List.mem_cons_of_mem _ hm)), List.cons_append]

theorem screen_code (c : Color) (s : Str) : screen false (c.code ++ s) = screen false s := by
  cases c <;> rfl

/-- Nothing is left open at the end. -/
def Closed (s : Str) : Prop := ∀ s', screen false (s ++ s') = screen false s ++ screen false s'

theorem closed_nil : Closed [] := fun _ => rfl

theorem closed_append {a b : Str} (ha : Closed a) (hb : Closed b) : Closed (a ++ b) := by
  intro s
  rw [List.append_assoc, ha, hb, ha, List.append_assoc]

theorem closed_clean {s : Str} (h : '\x1b' ∉ s) : Closed s := by
  intro s'
  have := screen_append s [] h
  rw [List.append_nil] at this
  rw [screen_append s s' h, this]
  simp [screen]

theorem screen_clean {s : Str} (h : '\x1b' ∉ s) : screen false s = s := by
  have := screen_append s [] h
  rw [List.append_nil] at this
  rw [this]
  simp [screen]

theorem closed_code (c : Color) : Closed c.code := by
  intro s
  rw [screen_code]
  cases c <;> rfl

theorem colorize_view (t : Term) (m : Str) (c : Color) (h : '\x1b' ∉ m) :
    view t.noColor (colorize t m c) = m ∧ (t.noColor = false → Closed (colorize t m c)) := by
  unfold view colorize
  cases hn : t.noColor with
  | true => simp
  | false =>
    have e1 : screen false (c.code ++ m ++ Color.default.code) = m := by
      rw [List.append_assoc, screen_code, screen_append m _ h]
      rw [show Color.default.code = Color.default.code ++ [] by simp, screen_code]
      simp [screen]
    refine ⟨by simpa using e1, fun _ => ?_⟩
    simp only [Bool.false_eq_true, if_false]
    exact closed_append (closed_append (closed_code c) (closed_clean h)) (closed_code _)

/-- What one call adds. -/
structure Adds (t : Term) (w w' : Written) (o r : Str) (l : List (Level × Str)) : Prop where
  out : ∃ x, w'.out = w.out ++ x ∧ view t.noColor x = o ∧ (t.noColor = false → Closed x)
  err : ∃ x, w'.err = w.err ++ x ∧ view t.noColor x = r ∧ (t.noColor = false → Closed x)
  log : w'.log = w.log ++ (if t.log then l else [])

theorem adds_nil (t : Term) (w : Written) : Adds t w w [] [] [] := by
  have : view t.noColor [] = [] := by unfold view; cases t.noColor <;> simp [screen]
  exact ⟨⟨[], by simp, this, fun _ => closed_nil⟩, ⟨[], by simp, this, fun _ => closed_nil⟩, by simp⟩

theorem view_nil (b : Bool) : view b [] = [] := by unfold view; cases b <;> simp [screen]

theorem adds_out {t : Term} {w : Written} {x o : Str} {v : Bool} (hs : v = true → t.verbose = true) (hv : view t.noColor x = o)
    (hc : t.noColor = false → Closed x) : Adds t w (output t x false v w) o [] [] := by
  have hb : ((v && t.verbose) || !v) = true := by
    cases v with
    | false => simp
    | true => simp [hs rfl]
  unfold output
  rw [if_pos hb, if_neg (by simp)]
  exact ⟨⟨x, rfl, hv, hc⟩, ⟨[], by simp, view_nil _, fun _ => closed_nil⟩, by simp⟩

theorem adds_err {t : Term} {w : Written} {x o : Str} {v : Bool} (hs : v = true → t.verbose = true) (hv : view t.noColor x = o)
    (hc : t.noColor = false → Closed x) : Adds t w (output t x true v w) [] o [] := by
  have hb : ((v && t.verbose) || !v) = true := by
    cases v with
    | false => simp
    | true => simp [hs rfl]
  unfold output
  rw [if_pos hb, if_pos rfl]
  exact ⟨⟨[], by simp, view_nil _, fun _ => closed_nil⟩, ⟨x, rfl, hv, hc⟩, by simp⟩

theorem adds_hidden {t : Term} {w : Written} {x : Str} {v e : Bool} (hs : ¬ (v = true → t.verbose = true)) :
    Adds t w (output t x e v w) [] [] [] := by
  have hb : ¬ ((v && t.verbose) || !v) = true := by
    intro hh
    apply hs
    intro hvb
    simpa [hvb] using hh
  unfold output
  rw [if_neg hb]
  exact adds_nil t w

theorem adds_logged {t : Term} {w w' : Written} {o r : Str} (h : Adds t w w' o r []) (l : Level) (m : Str) :
    Adds t w (logged t l m w') o r [(l, m)] := by
  unfold logged
  have hl := h.log
  cases ht : t.log with
  | false =>
    rw [if_neg (by simp)]
    exact ⟨h.out, h.err, by rw [hl, ht]; simp⟩
  | true =>
    rw [if_pos rfl]
    exact ⟨h.out, h.err, by simp [hl, ht]⟩

theorem logged_adds {t : Term} {w w' : Written} {o r : Str} (l : Level) (m : Str) (h : Adds t (logged t l m w) w' o r []) :
    Adds t w w' o r [(l, m)] := by
  have ho : (logged t l m w).out = w.out := by unfold logged; split <;> rfl
  have hr : (logged t l m w).err = w.err := by unfold logged; split <;> rfl
  have hl : (logged t l m w).log = w.log ++ (if t.log then [(l, m)] else []) := by
    unfold logged
    cases t.log <;> simp
  have h1 := h.out
  have h2 := h.err
  have h3 := h.log
  rw [ho] at h1
  rw [hr] at h2
  refine ⟨h1, h2, ?_⟩
  rw [h3, hl]
  cases t.log <;> simp

theorem clean_line {m : Str} (h : '\x1b' ∉ m) : '\x1b' ∉ m ++ ['\n'] := by
  simp [h]

theorem view_clean {t : Term} {m : Str} (h : '\x1b' ∉ m) : view t.noColor m = m := by
  unfold view
  cases t.noColor <;> simp [screen_clean h]

/-- What a call is to add. -/
def Good (t : Term) (w : Written) (c : Call) : Prop :=
  ∃ w', call t w c = some w' ∧ Adds t w w' (if c.asked t ∧ c.toErr = false then c.line t.noColor else [])
    (if c.asked t ∧ c.toErr = true then c.line t.noColor else []) c.entry

theorem good_out {t : Term} {w w' : Written} {c : Call} (hs : c.asked t) (he : c.toErr = false) (h : call t w c = some w')
    (ha : Adds t w w' (c.line t.noColor) [] c.entry) : Good t w c := by
  refine ⟨w', h, ?_⟩
  rw [if_pos ⟨hs, he⟩, if_neg (by simp [he])]
  exact ha

theorem good_err {t : Term} {w w' : Written} {c : Call} (hs : c.asked t) (he : c.toErr = true) (h : call t w c = some w')
    (ha : Adds t w w' [] (c.line t.noColor) c.entry) : Good t w c := by
  refine ⟨w', h, ?_⟩
  rw [if_neg (by simp [he]), if_pos ⟨hs, he⟩]
  exact ha

theorem good_hidden {t : Term} {w w' : Written} {c : Call} (hs : ¬ c.asked t) (h : call t w c = some w')
    (ha : Adds t w w' [] [] c.entry) : Good t w c := by
  refine ⟨w', h, ?_⟩
  rw [if_neg (fun hh => hs hh.1), if_neg (fun hh => hs hh.1)]
  exact ha

theorem good_warning (t : Term) (w : Written) (m : Str) (v : Bool) (hc : '\x1b' ∉ m) : Good t w (.warning m v) := by
  by_cases hs : v = true → t.verbose = true
  · refine good_err (c := .warning m v) hs rfl rfl (logged_adds _ _ ?_)
    cases hn : t.noColor with
    | true =>
      rw [if_pos rfl]
      exact adds_err hs (by unfold view; rw [hn]; rfl) (by simp [hn])
    | false =>
      rw [if_neg (by simp)]
      have hv := colorize_view t (m ++ ['\n']) .purple (clean_line hc)
      exact adds_err hs hv.1 hv.2
  · refine good_hidden (c := .warning m v) hs rfl (logged_adds _ _ ?_)
    cases hn : t.noColor with
    | true => exact adds_hidden hs
    | false => exact adds_hidden hs

theorem good_error (t : Term) (w : Written) (m : Str) (hc : '\x1b' ∉ m) : Good t w (.error m) := by
  refine good_err (c := .error m) trivial rfl rfl (logged_adds _ _ ?_)
  cases hn : t.noColor with
  | true =>
    rw [if_pos rfl]
    exact adds_err (by simp) (by unfold view; rw [hn]; rfl) (by simp [hn])
  | false =>
    rw [if_neg (by simp)]
    have hv := colorize_view t (m ++ ['\n']) .red (clean_line hc)
    exact adds_err (by simp) hv.1 hv.2

theorem status_ascii (m : Str) : asciiOnly m = true ↔ ¬ ∃ c ∈ m, 128 ≤ c.toNat := by
  unfold asciiOnly
  rw [List.all_eq_true]
  constructor
  · rintro h ⟨c, hcm, hge⟩
    have := h c hcm
    simp only [decide_eq_true_eq] at this
    omega
  · intro h c hcm
    simp only [decide_eq_true_eq]
    exact Nat.lt_of_not_le (fun hge => h ⟨c, hcm, hge⟩)

theorem good_status (t : Term) (w : Written) (m : Str) (hc : '\x1b' ∉ m) :
    ((Call.status m).badTitle t → call t w (.status m) = none) ∧ (¬ (Call.status m).badTitle t → Good t w (.status m)) := by
  by_cases hm : m = []
  · subst hm
    refine ⟨fun ⟨_, c, hcm, _⟩ => absurd hcm (by simp), fun _ => good_out (c := .status []) (w' := w) trivial rfl (by simp [call]) ?_⟩
    exact adds_nil t w
  · have hv := colorize_view t (m ++ ['\n']) .purple (clean_line hc)
    have hadds : Adds t w _ (m ++ ['\n']) [] [] := adds_out (v := false) (by simp) hv.1 hv.2
    constructor
    · rintro ⟨h1, h2⟩
      simp only [call, if_neg hm, h1, if_true]
      rw [if_neg (fun hh => (status_ascii m).mp hh h2)]
    · intro hb
      have hl : (Call.status m).line t.noColor = m ++ ['\n'] := if_neg hm
      cases ht : t.titled with
      | false =>
        refine good_out (c := .status m) trivial rfl (by simp only [call, if_neg hm, ht, Bool.false_eq_true, if_false]; rfl) ?_
        rw [hl]
        exact hadds
      | true =>
        have h2 : asciiOnly m = true := (status_ascii m).mpr (fun hh => hb ⟨ht, hh⟩)
        refine good_out (c := .status m) trivial rfl (by simp only [call, if_neg hm, ht, if_true, h2]; rfl) ?_
        rw [hl]
        exact ⟨hadds.out, hadds.err, hadds.log⟩

theorem good_notify (t : Term) (w : Written) (e : Event) (n : Str) (hn : '\x1b' ∉ n) : Good t w (.notify e n) := by
  have key : ∀ m, '\x1b' ∉ m → Adds t w (logged t .info m (output t (colorize t (m ++ ['\n']) .cyan) false false w)) (m ++ ['\n']) []
      [(.info, m)] := by
    intro m hm
    have hv := colorize_view t (m ++ ['\n']) .cyan (clean_line hm)
    exact adds_logged (adds_out (by simp) hv.1 hv.2) _ _
  cases e with
  | installed => exact good_out (c := .notify .installed n) trivial rfl rfl (key ("Installed ".toList ++ n) (by simp [hn]))
  | upgraded => exact good_out (c := .notify .upgraded n) trivial rfl rfl (key ("Upgraded ".toList ++ n) (by simp [hn]))
  | removed => exact good_out (c := .notify .removed n) trivial rfl rfl (key ("Removed ".toList ++ n) (by simp [hn]))
  | configured => exact good_out (c := .notify .configured n) trivial rfl rfl (key ("Configured ".toList ++ n) (by simp [hn]))
  | extracting =>
    exact good_out (c := .notify .extracting n) trivial rfl rfl (key ("Extracting the files of ".toList ++ n) (by simp [hn]))
  | installing => exact good_out (c := .notify .installing n) trivial rfl rfl (adds_nil t w)
  | removing => exact good_out (c := .notify .removing n) trivial rfl rfl (adds_nil t w)
  | configuring => exact good_out (c := .notify .configuring n) trivial rfl rfl (adds_nil t w)
  | downloading => exact good_out (c := .notify .downloading n) trivial rfl rfl (adds_nil t w)
  | packagestogo => exact good_out (c := .notify .packagestogo n) trivial rfl rfl (adds_nil t w)

/-- One call shows and logs what it is to, and fails only for titles. -/
theorem call_adds (t : Term) (w : Written) (c : Call) (hc : c.clean) (ha : ∀ m v, c = .action m v → c.asked t) :
    (c.badTitle t → call t w c = none) ∧ (¬ c.badTitle t → Good t w c) := by
  cases c with
  | info m v n =>
    refine ⟨fun h => False.elim h, fun _ => ?_⟩
    have hx : '\x1b' ∉ (if n then m else m ++ ['\n']) := by
      cases n with
      | true => exact hc
      | false => exact clean_line hc
    by_cases hs : v = true → t.verbose = true
    · exact good_out (c := .info m v n) hs rfl rfl (adds_out hs (view_clean hx) (fun _ => closed_clean hx))
    · exact good_hidden (c := .info m v n) hs rfl (adds_hidden hs)
  | warning m v => exact ⟨fun h => False.elim h, fun _ => good_warning t w m v hc⟩
  | error m => exact ⟨fun h => False.elim h, fun _ => good_error t w m hc⟩
  | action m v =>
    refine ⟨fun h => False.elim h, fun _ => good_out (c := .action m v) (ha m v rfl) rfl rfl (logged_adds _ _ ?_)⟩
    have hv := colorize_view t (m ++ ['\n']) .green (clean_line hc)
    exact adds_out (by simp) hv.1 hv.2
  | status m => exact good_status t w m hc
  | notify e n => exact ⟨fun h => False.elim h, fun _ => good_notify t w e n hc⟩
  | debug m =>
    refine ⟨fun h => False.elim h, fun _ => ?_⟩
    by_cases hd : t.debug = true
    · have hx : '\x1b' ∉ "DEBUG: ".toList ++ m ++ ['\n'] := by
        have : '\x1b' ∉ m := hc
        simp [this]
      refine good_out (c := .debug m) hd rfl (w' := info t ("DEBUG: ".toList ++ m) false false w) ?_ ?_
      · unfold call
        simp only [hd, if_true]
      · exact adds_out (by simp) (view_clean hx) (fun _ => closed_clean hx)
    · refine good_hidden (c := .debug m) hd (w' := w) ?_ (adds_nil t w)
      unfold call
      simp only [hd, Bool.false_eq_true, if_false]

/-- **C207, full statement.** -/
def ConsoleFull : Prop := ∀ (t : Term) (cs : List Call), (∀ c ∈ cs, c.clean) → ∃ w, run t cs = some w ∧
  view t.noColor w.out = seen t false cs ∧ view t.noColor w.err = seen t true cs ∧
  w.log = if t.log then cs.flatMap Call.entry else []

theorem runFrom (t : Term) (cs : List Call) (w : Written) (o r : Str) (hc : ∀ c ∈ cs, c.clean)
    (ha : ∀ c ∈ cs, ∀ m v, c = .action m v → c.asked t) (ho : view t.noColor w.out = o) (hr : view t.noColor w.err = r)
    (ho' : t.noColor = false → Closed w.out) (hr' : t.noColor = false → Closed w.err) :
    ((∃ c ∈ cs, c.badTitle t) → cs.foldlM (call t) w = none) ∧
    ((¬ ∃ c ∈ cs, c.badTitle t) → ∃ w', cs.foldlM (call t) w = some w' ∧
      view t.noColor w'.out = o ++ seen t false cs ∧ view t.noColor w'.err = r ++ seen t true cs ∧
      w'.log = w.log ++ if t.log then cs.flatMap Call.entry else []) := by
  induction cs generalizing w o r with
  | nil =>
    refine ⟨fun ⟨c, h, _⟩ => absurd h (by simp), fun _ => ⟨w, rfl, by simp [seen, ho], by simp [seen, hr], by simp⟩⟩
  | cons c cs ih =>
    obtain ⟨h1, h2⟩ := call_adds t w c (hc c (by simp)) (ha c (by simp))
    rw [List.foldlM_cons]
    by_cases hb : c.badTitle t
    · rw [h1 hb]
      exact ⟨fun _ => rfl, fun hn => absurd ⟨c, by simp, hb⟩ hn⟩
    · obtain ⟨w1, e1, hadd⟩ := h2 hb
      rw [e1]
      obtain ⟨x, ex, vx, cx⟩ := hadd.out
      obtain ⟨y, ey, vy, cy⟩ := hadd.err
      have vapp : ∀ {a b va vb : Str}, view t.noColor a = va → view t.noColor b = vb → (t.noColor = false → Closed a) →
          view t.noColor (a ++ b) = va ++ vb := by
        intro a b va vb e1 e2 hcl
        unfold view at *
        cases hn : t.noColor with
        | true => simp [hn] at e1 e2 ⊢; simp [e1, e2]
        | false => simp [hn] at e1 e2 ⊢; rw [hcl hn, e1, e2]
      have := ih w1 _ _ (fun c' h' => hc c' (List.mem_cons_of_mem _ h')) (fun c' h' => ha c' (List.mem_cons_of_mem _ h'))
        ((congrArg _ ex).trans (vapp ho vx ho')) ((congrArg _ ey).trans (vapp hr vy hr'))
        (fun hn => by rw [ex]; exact closed_append (ho' hn) (cx hn)) (fun hn => by rw [ey]; exact closed_append (hr' hn) (cy hn))
      refine ⟨fun ⟨c', hm, hb'⟩ => ?_, fun hn => ?_⟩
      · rcases List.mem_cons.mp hm with rfl | hm
        · exact absurd hb' hb
        · exact this.1 ⟨c', hm, hb'⟩
      · obtain ⟨w', e2, g1, g2, g3⟩ := this.2 (fun ⟨c', hm, hb'⟩ => hn ⟨c', List.mem_cons_of_mem _ hm, hb'⟩)
        refine ⟨w', e2, ?_, ?_, ?_⟩
        · rw [g1]; unfold seen; rw [List.flatMap_cons, List.append_assoc]
        · rw [g2]; unfold seen; rw [List.flatMap_cons, List.append_assoc]
        · rw [g3, hadd.log]
          cases t.log <;> simp

/-- **C207, proved part.**  If no action is for `--verbose` only, the calls fail exactly if a status with a character outside of ASCII is to
be the title of a terminal.  Otherwise both streams and the log have exactly what they are to have: without colours as they are, with
colours after taking out the control sequences. -/
theorem console_partial (t : Term) (cs : List Call) (hc : ∀ c ∈ cs, c.clean) (ha : ∀ c ∈ cs, ∀ m v, c = .action m v → c.asked t) :
    (run t cs = none ↔ ∃ c ∈ cs, c.badTitle t) ∧
    ∀ w, run t cs = some w → view t.noColor w.out = seen t false cs ∧ view t.noColor w.err = seen t true cs ∧
      w.log = if t.log then cs.flatMap Call.entry else [] := by
  obtain ⟨h1, h2⟩ := runFrom t cs {} [] [] hc ha (view_nil _) (view_nil _) (fun _ => closed_nil) (fun _ => closed_nil)
  constructor
  · constructor
    · intro hn
      apply Classical.byContradiction
      intro hb
      obtain ⟨w, e, _⟩ := h2 hb
      unfold run at hn
      rw [e] at hn
      cases hn
    · exact h1
  · intro w hw
    unfold run at hw
    by_cases hb : ∃ c ∈ cs, c.badTitle t
    · rw [h1 hb] at hw; cases hw
    · obtain ⟨w', e, g1, g2, g3⟩ := h2 hb
      rw [e] at hw
      cases hw
      exact ⟨by simpa using g1, by simpa using g2, by simpa using g3⟩

/-- C207: with colours, errors are red, warnings and states purple, actions green, and what comes after has no colour. -/
theorem console_colours (t : Term) (w : Written) (msg : Str) (h : t.noColor = false) :
    (call t w (.error msg)).map (·.err) = some (w.err ++ ("\x1b[31m".toList ++ (msg ++ ['\n']) ++ "\x1b[0m".toList)) ∧
    (call t w (.warning msg false)).map (·.err) = some (w.err ++ ("\x1b[35m".toList ++ (msg ++ ['\n']) ++ "\x1b[0m".toList)) ∧
    (call t w (.action msg false)).map (·.out) = some (w.out ++ ("\x1b[32m".toList ++ (msg ++ ['\n']) ++ "\x1b[0m".toList)) ∧
    (t.titled = false → msg ≠ [] →
      (call t w (.status msg)).map (·.out) = some (w.out ++ ("\x1b[35m".toList ++ (msg ++ ['\n']) ++ "\x1b[0m".toList))) := by
  have hl : ∀ l m, (logged t l m w).out = w.out ∧ (logged t l m w).err = w.err := by
    intro l m; unfold logged; cases t.log <;> exact ⟨rfl, rfl⟩
  refine ⟨?_, ?_, ?_, ?_⟩
  · simp [call, output, colorize, h, Color.code, (hl _ _).2]
  · simp [call, output, colorize, h, Color.code, (hl _ _).2]
  · simp [call, output, colorize, h, Color.code, (hl _ _).1]
  · intro ht hm
    simp [call, output, colorize, h, Color.code, ht, hm]

/-- The hypotheses can be met: a run with colours. -/
example : ∃ w, run ⟨false, false, true, true, true⟩ [.status "Go".toList, .warning "no".toList false, .info "x".toList true false,
    .notify .installed "a".toList, .debug "d".toList] = some w ∧ view false w.out = "Go\nInstalled a\nDEBUG: d\n".toList ∧
    view false w.err = "no\n".toList := ⟨_, rfl, by decide, by decide⟩

/-- **C207 is false of the code**: a status that is not ASCII cannot be the title of a terminal. -/
theorem console_refuted : ¬ ConsoleFull := by
  intro h
  obtain ⟨w, hw, _⟩ := h ⟨false, false, false, false, true⟩ [.status ['ş']] (by simp [Call.clean])
  have : run ⟨false, false, false, false, true⟩ [.status ['ş']] = none := by
    rw [(console_partial _ _ (by simp [Call.clean]) (by simp)).1]
    exact ⟨_, List.mem_singleton.mpr rfl, rfl, 'ş', by simp, by decide⟩
  rw [this] at hw
  cases hw

/-- **C207.**  Actions are shown without `--verbose` even if they are for `--verbose` only. -/
theorem action_always (m : Str) : ((run ⟨true, false, false, false, false⟩ [.action m true]).map (·.out)) = some (m ++ ['\n']) ∧
    seen ⟨true, false, false, false, false⟩ false [.action m true] = [] := by
  constructor
  · simp [run, call, output, colorize, logged]
  · simp [seen, Call.asked]

end Pisi.Console
