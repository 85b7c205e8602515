import Verif.Support.Protocol

/-!
# A client and a server understand each other under every schedule (C67)
-/

namespace Tsar.Protocol

theorem messages_work (k : ℕ) (c : List CStep) : messages (.work k :: c) = messages c := rfl
theorem stages_work (k : ℕ) (s : List SStep) : stages (.work k :: s) = stages s := rfl
theorem messages_wait (c : List CStep) : messages (.wait :: c) = .wait :: messages c := rfl
theorem messages_close (c : List CStep) : messages (.close :: c) = .close :: messages c := rfl
theorem messages_release (c : List CStep) : messages (.release :: c) = .release :: messages c := rfl
theorem messages_request (k : ℕ) (c : List CStep) :
    messages (.request k :: c) = .request k :: messages c := rfl
theorem stages_notify (s : List SStep) : stages (.notify :: s) = .notify :: stages s := rfl
theorem stages_respond (s : List SStep) : stages (.respond :: s) = .respond :: stages s := rfl

theorem messages_append (a b : List CStep) : messages (a ++ b) = messages a ++ messages b :=
  List.filter_append ..
theorem stages_append (a b : List SStep) : stages (a ++ b) = stages a ++ stages b :=
  List.filter_append ..

theorem fits_request {k : ℕ} {c : List CStep} {s : List SStep} :
    Fits (.request k :: c) s ↔ (∃ s', s = .respond :: s') ∧ Fits c s := by
  constructor
  · intro h
    generalize hc : CStep.request k :: c = c' at h
    cases h with
    | nil => simp at hc
    | wait => simp at hc
    | close => simp at hc
    | @respond ks c1 s1 h1 =>
      cases ks with
      | nil => simp at hc
      | cons x ks =>
        simp only [List.map_cons, List.cons_append, List.cons.injEq] at hc
        obtain ⟨_, rfl⟩ := hc
        exact ⟨⟨_, rfl⟩, .respond h1⟩
  · rintro ⟨⟨s', rfl⟩, h⟩
    generalize hs : SStep.respond :: s' = s at h
    cases h with
    | nil => simp at hs
    | wait => simp at hs
    | close => simp at hs
    | @respond ks c1 s1 h1 => exact .respond (ks := k :: ks) h1

theorem fits_release {c : List CStep} {s : List SStep} :
    Fits (.release :: c) s ↔ ∃ s', s = .respond :: s' ∧ Fits c s' := by
  constructor
  · intro h
    generalize hc : CStep.release :: c = c' at h
    cases h with
    | nil => simp at hc
    | wait => simp at hc
    | close => simp at hc
    | @respond ks c1 s1 h1 =>
      cases ks with
      | nil =>
        simp only [List.map_nil, List.nil_append, List.cons.injEq, true_and] at hc
        subst hc
        exact ⟨_, rfl, h1⟩
      | cons x ks => simp at hc
  · rintro ⟨s', rfl, h⟩
    exact .respond (ks := []) h

theorem fits_wait {c : List CStep} {s : List SStep} :
    Fits (.wait :: c) s ↔ ∃ s', s = .notify :: s' ∧ Fits c s' := by
  constructor
  · intro h
    generalize hc : CStep.wait :: c = c' at h
    cases h with
    | nil => simp at hc
    | wait h =>
      simp only [List.cons.injEq, true_and] at hc
      subst hc
      exact ⟨_, rfl, h⟩
    | close => simp at hc
    | @respond ks c1 s1 h1 => cases ks <;> simp at hc
  · rintro ⟨s', rfl, h⟩
    exact .wait h

theorem fits_close {c : List CStep} {s : List SStep} :
    Fits (.close :: c) s ↔ ∃ s', s = .notify :: s' ∧ Fits c s' := by
  constructor
  · intro h
    generalize hc : CStep.close :: c = c' at h
    cases h with
    | nil => simp at hc
    | wait => simp at hc
    | close h =>
      simp only [List.cons.injEq, true_and] at hc
      subst hc
      exact ⟨_, rfl, h⟩
    | @respond ks c1 s1 h1 => cases ks <;> simp at hc
  · rintro ⟨s', rfl, h⟩
    exact .close h

theorem fits_nil {s : List SStep} : Fits [] s ↔ s = [] := by
  constructor
  · intro h
    generalize hc : ([] : List CStep) = c' at h
    cases h with
    | nil => rfl
    | wait => simp at hc
    | close => simp at hc
    | respond => simp at hc
  · rintro rfl
    exact .nil

theorem fits_nil_right {c : List CStep} (h : Fits c []) : c = [] := by
  generalize hs : ([] : List SStep) = s at h
  cases h with
  | nil => rfl
  | wait => simp at hs
  | close => simp at hs
  | respond => simp at hs

/-- Messages and stages of a state fit. -/
def Good : St → Prop
  | .running c s => Fits (messages c) (stages s)
  | .unreachable => False

theorem good_step {t t' : St} (h : Good t) (hs : Step t t') : Good t' := by
  cases hs with
  | client => exact h
  | server => exact h
  | wait =>
    obtain ⟨s', h1, h2⟩ := fits_wait.1 h
    rw [stages_notify, List.cons.injEq] at h1
    obtain ⟨-, rfl⟩ := h1
    exact h2
  | close =>
    obtain ⟨s', h1, h2⟩ := fits_close.1 h
    rw [stages_notify, List.cons.injEq] at h1
    obtain ⟨-, rfl⟩ := h1
    exact h2
  | request => exact (fits_request.1 h).2
  | release =>
    obtain ⟨s', h1, h2⟩ := fits_release.1 h
    rw [stages_respond, List.cons.injEq] at h1
    obtain ⟨-, rfl⟩ := h1
    exact h2
  | badRequest =>
    obtain ⟨⟨s', h1⟩, _⟩ := fits_request.1 h
    simp [stages_notify] at h1
  | badRelease =>
    obtain ⟨s', h1, _⟩ := fits_release.1 h
    simp [stages_notify] at h1
  | badWait =>
    obtain ⟨s', h1, _⟩ := fits_wait.1 h
    simp [stages_respond] at h1
  | badClose =>
    obtain ⟨s', h1, _⟩ := fits_close.1 h
    simp [stages_respond] at h1

theorem good_reach {t t' : St} (h : Good t) (hr : Reach t t') : Good t' := by
  induction hr with
  | refl => exact h
  | tail _ hs ih => exact good_step ih hs

theorem good_progress {t : St} (h : Good t) : t = .running [] [] ∨ ∃ t', Step t t' := by
  cases t with
  | unreachable => exact h.elim
  | running c s =>
    cases s with
    | nil =>
      cases c with
      | nil => exact .inl rfl
      | cons a c =>
        have h0 := fits_nil_right h
        cases a with
        | work k => exact .inr ⟨_, .client⟩
        | _ => simp [messages] at h0
    | cons b s =>
      right
      cases c with
      | nil =>
        have h0 := fits_nil.1 h
        cases b with
        | work k => exact ⟨_, .server⟩
        | _ => simp [stages] at h0
      | cons a c => cases a <;> cases b <;> first
          | exact ⟨_, .client⟩ | exact ⟨_, .server⟩ | exact ⟨_, .wait⟩ | exact ⟨_, .close⟩
          | exact ⟨_, .request⟩ | exact ⟨_, .release⟩ | exact ⟨_, .badRequest⟩
          | exact ⟨_, .badRelease⟩ | exact ⟨_, .badWait⟩ | exact ⟨_, .badClose⟩

/-- Number of remaining steps. -/
def size : St → ℕ
  | .running c s => c.length + s.length
  | .unreachable => 0

theorem size_step {t t' : St} (hs : Step t t') : size t' < size t := by
  cases hs <;> simp [size] <;> omega

theorem size_bound (f : ℕ → St) (k : ℕ) (h : ∀ i < k, Step (f i) (f (i + 1))) :
    size (f k) + k ≤ size (f 0) := by
  induction k with
  | zero => simp
  | succ k ih =>
    have := ih fun i hi => h i (by omega)
    have := size_step (h k (by omega))
    omega

theorem correct_of_fits {c : List CStep} {s : List SStep} (h : Fits (messages c) (stages s)) :
    Correct c s := by
  have hg : Good (.running c s) := h
  refine ⟨fun hr => good_reach hg hr, fun t ht => good_progress (good_reach hg ht),
    c.length + s.length, ?_⟩
  intro k f h0 hf
  have := size_bound f k hf
  rw [h0] at this
  simp only [size] at this
  omega

theorem Correct.step {c c' : List CStep} {s s' : List SStep} (h : Correct c s)
    (hs : Step (.running c s) (.running c' s')) : Correct c' s' := by
  refine ⟨fun hr => h.safe (.head hs hr), fun t ht => h.live t (.head hs ht),
    c'.length + s'.length, ?_⟩
  intro k f h0 hf
  have := size_bound f k hf
  rw [h0] at this
  simp only [size] at this
  omega

theorem fits_of_correct (n : ℕ) {c : List CStep} {s : List SStep} (hn : c.length + s.length ≤ n)
    (h : Correct c s) : Fits (messages c) (stages s) := by
  induction n generalizing c s with
  | zero =>
    obtain ⟨rfl, rfl⟩ : c = [] ∧ s = [] := by
      constructor <;> apply List.length_eq_zero_iff.1 <;> omega
    exact .nil
  | succ n ih =>
    have stuck : (¬ ∃ t', Step (.running c s) t') → c = [] ∧ s = [] := by
      intro hno
      rcases h.live _ .refl with h1 | h1
      · simpa using h1
      · exact absurd h1 hno
    have bad : ¬ Step (.running c s) .unreachable := fun hs => h.safe (.single hs)
    rcases s with _ | ⟨b, s⟩
    · rcases c with _ | ⟨a, c⟩
      · exact .nil
      · cases a with
        | work k => exact ih (c := c) (s := []) (by simp at hn ⊢; omega) (h.step .client)
        | _ =>
          have := stuck (by rintro ⟨t', ht⟩; cases ht)
          simp at this
    · rcases c with _ | ⟨a, c⟩
      · cases b with
        | work k => exact ih (c := []) (s := s) (by simp at hn ⊢; omega) (h.step .server)
        | _ =>
          have := stuck (by rintro ⟨t', ht⟩; cases ht)
          simp at this
      · have hl : c.length + s.length + 2 ≤ n + 1 := by simp at hn; omega
        cases a with
        | work k => exact ih (c := c) (s := b :: s) (by simp; omega) (h.step .client)
        | wait => cases b with
          | work k => exact ih (c := .wait :: c) (s := s) (by simp; omega) (h.step .server)
          | notify => exact .wait (ih (by omega) (h.step .wait))
          | respond => exact absurd .badWait bad
        | close => cases b with
          | work k => exact ih (c := .close :: c) (s := s) (by simp; omega) (h.step .server)
          | notify => exact .close (ih (by omega) (h.step .close))
          | respond => exact absurd .badClose bad
        | release => cases b with
          | work k => exact ih (c := .release :: c) (s := s) (by simp; omega) (h.step .server)
          | notify => exact absurd .badRelease bad
          | respond => exact fits_release.2 ⟨_, rfl, ih (by omega) (h.step .release)⟩
        | request k' => cases b with
          | work k => exact ih (c := .request k' :: c) (s := s) (by simp; omega) (h.step .server)
          | notify => exact absurd .badRequest bad
          | respond => exact fits_request.2 ⟨⟨_, rfl⟩, ih (c := c) (s := .respond :: s) (by simp; omega) (h.step .request)⟩

/-- **C67**, the exact condition: a client and a server, with any amount of other work, understand
each other under every schedule if and only if messages of the client fit communicating passes of
the server. -/
theorem correct_iff_fits (c : List CStep) (s : List SStep) :
    Correct c s ↔ Fits (messages c) (stages s) :=
  ⟨fun h => fits_of_correct _ (Nat.le_refl _) h, correct_of_fits⟩

/-! ## Pipelines of the repository -/

theorem messages_works (l : List ℕ) : messages (l.map .work) = [] := by
  induction l with
  | nil => rfl
  | cons a l ih => exact ih

theorem stages_works (l : List ℕ) : stages (l.map .work) = [] := by
  induction l with
  | nil => rfl
  | cons a l ih => exact ih

theorem messages_uses (l : List Use) :
    ∃ ks : List ℕ, messages (l.map Use.step) = ks.map .request := by
  induction l with
  | nil => exact ⟨[], rfl⟩
  | cons a l ih =>
    obtain ⟨ks, hk⟩ := ih
    cases a with
    | work k => exact ⟨ks, hk⟩
    | request k => exact ⟨k :: ks, congrArg (CStep.request k :: ·) hk⟩

/-- **C67**: each client of the server of memory analysis, whatever it requests, is served under every
schedule: no request is unexpected, nobody is blocked for ever, and all passes finish. -/
theorem diMemory_correct (init analysis verify toClose before between after : List ℕ)
    (main : List Use) :
    Correct (diMemoryClient before between main after)
      (serverOf init (diMemoryPasses analysis verify) toClose) := by
  rw [correct_iff_fits]
  obtain ⟨ks, hk⟩ := messages_uses main
  simp only [diMemoryClient, serverOf, diMemoryPasses, messages_append, stages_append,
    messages_works, stages_works, hk, List.nil_append, List.append_nil, messages_wait,
    messages_release, messages_close, stages_notify, stages_respond, List.append_assoc,
    List.singleton_append, List.cons_append]
  exact .wait (.wait (.respond (.close .nil)))

/-- **C67** for the server of the distributed-memory parallelisation. -/
theorem dvmh_correct (init analysis init1 analysis2 init2 toClose before between after : List ℕ)
    (first second : List Use) :
    Correct (dvmhClient before between first second after)
      (serverOf init (dvmhPasses analysis init1 analysis2 init2) toClose) := by
  rw [correct_iff_fits]
  obtain ⟨ks, hk⟩ := messages_uses first
  obtain ⟨ks', hk'⟩ := messages_uses second
  simp only [dvmhClient, serverOf, dvmhPasses, messages_append, stages_append,
    messages_works, stages_works, hk, hk', List.nil_append, List.append_nil, messages_wait,
    messages_release, messages_close, stages_notify, stages_respond, List.append_assoc,
    List.singleton_append, List.cons_append]
  exact .wait (.wait (.respond (.wait (.respond (.close .nil)))))

/-- A client of the second server which forgets to wait for the third step of analysis is not
served: the theorems above distinguish pipelines. -/
example (init analysis init1 analysis2 init2 toClose before between after : List ℕ)
    (first : List Use) :
    ¬ Correct (diMemoryClient before between first after)
      (serverOf init (dvmhPasses analysis init1 analysis2 init2) toClose) := by
  rw [correct_iff_fits]
  obtain ⟨ks, hk⟩ := messages_uses first
  simp only [diMemoryClient, serverOf, dvmhPasses, messages_append, stages_append,
    messages_works, stages_works, hk, List.nil_append, List.append_nil, messages_wait,
    messages_release, messages_close, stages_notify, stages_respond, List.append_assoc,
    List.singleton_append, List.cons_append]
  intro h
  obtain ⟨_, h1, h⟩ := fits_wait.1 h
  obtain ⟨_, h2, h⟩ := fits_wait.1 h
  simp only [List.cons.injEq, true_and] at h1
  subst h1
  simp only [List.cons.injEq, true_and] at h2
  subst h2
  have drop : ∀ (ks : List ℕ) (c : List CStep) (s : List SStep),
      Fits (ks.map .request ++ c) s → Fits c s := by
    intro ks c s h
    induction ks with
    | nil => exact h
    | cons k ks ih => exact ih (fits_request.1 h).2
  obtain ⟨_, h1, h⟩ := fits_release.1 (drop _ _ _ h)
  obtain ⟨_, h2, h⟩ := fits_close.1 h
  simp only [List.cons.injEq, true_and] at h1
  subst h1
  simp only [List.cons.injEq, true_and] at h2
  subst h2
  have := fits_nil.1 h
  simp at this

/-! ## Synchronisation -/

theorem sync_inv {w : CStep} (hw : w = .wait ∨ w = .close) {c2 : List CStep} {s2 : List SStep}
    {t t' : St}
    (h : (∃ c1 s1, t = .running (c1 ++ w :: c2) (s1 ++ .notify :: s2) ∧
        Fits (messages c1) (stages s1)) ∨
      ∃ c s, t = .running c s ∧ c.length ≤ c2.length ∧ s.length ≤ s2.length ∧
        Fits (messages c) (stages s))
    (hs : Step t t') :
    (∃ c1 s1, t' = .running (c1 ++ w :: c2) (s1 ++ .notify :: s2) ∧
        Fits (messages c1) (stages s1)) ∨
      t' = .running c2 s2 ∨
      ∃ c s, t' = .running c s ∧ c.length ≤ c2.length ∧ s.length ≤ s2.length ∧
        Fits (messages c) (stages s) := by
  rcases h with ⟨c1, s1, rfl, hf⟩ | ⟨c, s, rfl, h1, h2, hf⟩
  · rcases c1 with _ | ⟨a, c1⟩
    · have h0 := fits_nil.1 hf
      rcases s1 with _ | ⟨b, s1⟩
      · rcases hw with rfl | rfl
        · cases hs
          exact .inr (.inl rfl)
        · cases hs
          exact .inr (.inl rfl)
      · cases b with
        | work k =>
          rcases hw with rfl | rfl
          · cases hs
            exact .inl ⟨[], s1, rfl, hf⟩
          · cases hs
            exact .inl ⟨[], s1, rfl, hf⟩
        | _ => simp [stages] at h0
    · rcases s1 with _ | ⟨b, s1⟩
      · have h0 := fits_nil_right hf
        cases a with
        | work k =>
          cases hs
          exact .inl ⟨c1, [], rfl, hf⟩
        | _ => simp [messages] at h0
      · have hg : Good (.running (a :: c1) (b :: s1)) := hf
        cases hs with
        | client => exact .inl ⟨c1, b :: s1, rfl, good_step hg .client⟩
        | server => exact .inl ⟨a :: c1, s1, rfl, good_step hg .server⟩
        | wait => exact .inl ⟨c1, s1, rfl, good_step hg .wait⟩
        | close => exact .inl ⟨c1, s1, rfl, good_step hg .close⟩
        | request => exact .inl ⟨c1, .respond :: s1, rfl, good_step hg .request⟩
        | release => exact .inl ⟨c1, s1, rfl, good_step hg .release⟩
        | badRequest => exact (good_step hg .badRequest).elim
        | badRelease => exact (good_step hg .badRelease).elim
        | badWait => exact (good_step hg .badWait).elim
        | badClose => exact (good_step hg .badClose).elim
  · have hg : Good (.running c s) := hf
    have hg' := good_step hg hs
    cases t' with
    | unreachable => exact hg'.elim
    | running c' s' =>
      refine .inr (.inr ⟨c', s', rfl, ?_, ?_, hg'⟩)
      · cases hs <;> (try simp only [List.length_cons] at h1 ⊢) <;> omega
      · cases hs <;> (try simp only [List.length_cons] at h2 ⊢) <;> omega

/-- **C67**, synchronisation: under every schedule, the client has passed a wait for a notification
if and only if the server has passed the corresponding notification.  So, passes of the client
after the wait start only when all passes of the server before the notification have finished, and
passes of the server after the notification start only when all passes of the client before the
wait have finished. -/
theorem synchronised {w : CStep} (hw : w = .wait ∨ w = .close) {c1 c2 : List CStep}
    {s1 s2 : List SStep} (h1 : Fits (messages c1) (stages s1))
    (h2 : Fits (messages c2) (stages s2)) {c' : List CStep} {s' : List SStep}
    (hr : Reach (.running (c1 ++ w :: c2) (s1 ++ .notify :: s2)) (.running c' s')) :
    c'.length ≤ c2.length ↔ s'.length ≤ s2.length := by
  have key : ∀ t, Reach (.running (c1 ++ w :: c2) (s1 ++ .notify :: s2)) t →
      (∃ c1 s1, t = .running (c1 ++ w :: c2) (s1 ++ .notify :: s2) ∧
        Fits (messages c1) (stages s1)) ∨
      ∃ c s, t = .running c s ∧ c.length ≤ c2.length ∧ s.length ≤ s2.length ∧
        Fits (messages c) (stages s) := by
    intro t ht
    induction ht with
    | refl => exact .inl ⟨c1, s1, rfl, h1⟩
    | tail _ hs ih =>
      rcases sync_inv hw ih hs with h | rfl | h
      · exact .inl h
      · exact .inr ⟨c2, s2, rfl, Nat.le_refl _, Nat.le_refl _, h2⟩
      · exact .inr h
  rcases key _ hr with ⟨c, s, he, _⟩ | ⟨c, s, he, hc, hs, _⟩
  · simp only [St.running.injEq] at he
    obtain ⟨rfl, rfl⟩ := he
    simp
    omega
  · simp only [St.running.injEq] at he
    obtain ⟨rfl, rfl⟩ := he
    simp [hc, hs]

/-- The client does not change the module until the server is initialised: when a pass between the
first two waits has started, all initial passes of the server have finished. -/
theorem diMemory_initialised (init analysis verify toClose before between after : List ℕ)
    (main : List Use) {c' : List CStep} {s' : List SStep}
    (hr : Reach (.running (diMemoryClient before between main after)
      (serverOf init (diMemoryPasses analysis verify) toClose)) (.running c' s'))
    (hc : c'.length + before.length < (diMemoryClient before between main after).length) :
    s'.length + init.length <
      (serverOf init (diMemoryPasses analysis verify) toClose).length := by
  have h2 : Fits (messages (between.map .work ++ [.wait] ++ main.map Use.step ++
      [.release] ++ [.close] ++ after.map .work))
      (stages (diMemoryPasses analysis verify ++ toClose.map .work ++ [.notify])) := by
    obtain ⟨ks, hk⟩ := messages_uses main
    simp only [diMemoryPasses, messages_append, stages_append,
      messages_works, stages_works, hk, List.nil_append, List.append_nil, messages_wait,
      messages_release, messages_close, stages_notify, stages_respond, List.append_assoc,
      List.singleton_append, List.cons_append]
    exact .wait (.respond (.close .nil))
  have h1 : Fits (messages (before.map CStep.work)) (stages (init.map SStep.work)) := by
    rw [messages_works, stages_works]
    exact .nil
  have h := synchronised (.inl rfl) h1 h2 (c' := c') (s' := s') (by
    simpa [diMemoryClient, serverOf] using hr)
  simp only [diMemoryClient, serverOf, List.length_append, List.length_map, List.length_cons,
    List.length_nil] at hc h ⊢
  omega

/-- The client leaves the closing of the connection only when all passes of the server have finished,
in particular the passes which free shared data. -/
theorem diMemory_closed (init analysis verify toClose before between after : List ℕ)
    (main : List Use) {c' : List CStep} {s' : List SStep}
    (hr : Reach (.running (diMemoryClient before between main after)
      (serverOf init (diMemoryPasses analysis verify) toClose)) (.running c' s'))
    (hc : c'.length ≤ after.length) : s' = [] := by
  have h1 : Fits (messages (before.map .work ++ [.wait] ++ between.map .work ++ [.wait] ++
      main.map Use.step ++ [.release]))
      (stages (init.map .work ++ [.notify] ++ diMemoryPasses analysis verify ++
        toClose.map .work)) := by
    obtain ⟨ks, hk⟩ := messages_uses main
    simp only [diMemoryPasses, messages_append, stages_append,
      messages_works, stages_works, hk, List.nil_append, List.append_nil, messages_wait,
      messages_release, stages_notify, stages_respond, List.append_assoc,
      List.singleton_append, List.cons_append]
    exact .wait (.wait (.respond .nil))
  have h2 : Fits (messages (after.map CStep.work)) (stages []) := by
    rw [messages_works]
    exact .nil
  have h := synchronised (.inr rfl) h1 h2 (c' := c') (s' := s') (by
    simpa [diMemoryClient, serverOf] using hr)
  rw [List.length_map] at h
  exact List.length_eq_zero_iff.1 (Nat.le_zero.1 (h.1 hc))

end Tsar.Protocol
