import Mathlib.Data.List.Basic
import Mathlib.Data.List.Nodup
import Mathlib.Data.List.Induction
import Mathlib.Order.Basic

/-!
The registry of status consumers (status_consumer_registry.{h,cc}) used by any number of threads.
-/

namespace Verif.Registry

/-- What a thread calls: `Register`, `Start`, `Stop`. Consumers and providers are named by numbers. -/
inductive Call
  | register (c : Nat)
  | start (p : Nat)
  | stop
deriving DecidableEq, Repr

/-- What a consumer is told (`StatusConsumer`, status_consumer_registry.h 15-26). -/
inductive Msg
  | start (p : Nat)
  | stop
deriving DecidableEq, Repr

/-- How far the call that holds `mutex_` is: before `push_back`, in the loop at element `i` of `consumers_`, at its end. -/
inductive Phase
  | push (c : Nat)
  | deliver (m : Msg) (i : Nat)
  | done
deriving DecidableEq, Repr

/-- `holder`: the thread that holds `mutex_` and its phase. `todo`: what each thread still has to call. `trace`: what consumers were told,
in order. `hist` only records the calls in the order in which they got the mutex. -/
structure St where
  holder : Option (Nat × Phase)
  todo : Nat → List Call
  consumers : List Nat
  trace : List (Nat × Msg)
  hist : List (Nat × Call)

/-- The body of a call, status_consumer_registry.cc 15-29. -/
def phase : Call → Phase
  | .register c => .push c
  | .start p => .deliver (.start p) 0
  | .stop => .deliver .stop 0

/-- One step of one thread. Consumers do not call the registry themselves. -/
inductive Step : St → St → Prop
  /-- `absl::MutexLock lock(&mutex_)` -/
  | acquire (s t c cs) : s.holder = none → s.todo t = c :: cs →
      Step s { s with holder := some (t, phase c), todo := fun u => if u = t then cs else s.todo u, hist := s.hist ++ [(t, c)] }
  /-- `consumers_.push_back`, 28 -/
  | push (s t c) : s.holder = some (t, .push c) → Step s { s with holder := some (t, .done), consumers := s.consumers ++ [c] }
  /-- one round of the loops of 17 and 22 -/
  | deliver (s t m i c) : s.holder = some (t, .deliver m i) → s.consumers[i]? = some c →
      Step s { s with holder := some (t, .deliver m (i + 1)), trace := s.trace ++ [(c, m)] }
  /-- the end of the loop -/
  | finish (s t m i) : s.holder = some (t, .deliver m i) → s.consumers.length ≤ i → Step s { s with holder := some (t, .done) }
  /-- the mutex is released -/
  | release (s t) : s.holder = some (t, .done) → Step s { s with holder := none }

/-- The beginning: thread `t` will call `prog t`. -/
def init (prog : Nat → List Call) : St := ⟨none, prog, [], [], []⟩

inductive Reach (prog : Nat → List Call) : St → Prop
  | init : Reach prog (init prog)
  | step {s s'} : Reach prog s → Step s s' → Reach prog s'

/-! ## Specification -/

/-- The message of a call. -/
def msg? : Call → Option Msg
  | .register _ => none
  | .start p => some (.start p)
  | .stop => some .stop

/-- The messages a consumer should get from a sequence of calls: one for each `Start` and `Stop` after its registration. -/
def expected (c : Nat) (calls : List Call) : List Msg := ((calls.dropWhile (· ≠ .register c)).drop 1).filterMap msg?

/-- The messages it got. -/
def received (c : Nat) (s : St) : List Msg := (s.trace.filter (fun e => e.1 = c)).map Prod.snd

/-- The calls that have returned, or are about to. -/
def completed (s : St) : List (Nat × Call) :=
  match s.holder with
  | none => s.hist
  | some (_, .done) => s.hist
  | _ => s.hist.dropLast

/-- Each consumer is registered at most once: `Register` takes ownership. -/
def Once (prog : Nat → List Call) : Prop :=
  ∀ s, Reach prog s → ((s.hist.map Prod.snd).filterMap fun | .register c => some c | _ => none).Nodup

/-! ## Proofs -/

/-- The calls one after the other. -/
def exec1 (x : List Nat × List (Nat × Msg)) (c : Call) : List Nat × List (Nat × Msg) :=
  match c with
  | .register k => (x.1 ++ [k], x.2)
  | .start p => (x.1, x.2 ++ x.1.map (·, .start p))
  | .stop => (x.1, x.2 ++ x.1.map (·, .stop))

def exec (cs : List Call) : List Nat × List (Nat × Msg) := cs.foldl exec1 ([], [])

theorem exec_snoc (cs : List Call) (c : Call) : exec (cs ++ [c]) = exec1 (exec cs) c := by simp [exec]

/-- What holds at every moment. -/
inductive Inv (s : St) : Prop
  | idle : s.holder = none → exec (s.hist.map Prod.snd) = (s.consumers, s.trace) → Inv s
  | done (t) : s.holder = some (t, .done) → exec (s.hist.map Prod.snd) = (s.consumers, s.trace) → Inv s
  | push (t c h) : s.holder = some (t, .push c) → s.hist = h ++ [(t, .register c)] →
      exec (h.map Prod.snd) = (s.consumers, s.trace) → Inv s
  | deliver (t m i h k tr) : s.holder = some (t, .deliver m i) → s.hist = h ++ [(t, k)] → msg? k = some m → i ≤ s.consumers.length →
      exec (h.map Prod.snd) = (s.consumers, tr) → s.trace = tr ++ (s.consumers.take i).map (·, m) → Inv s

theorem exec1_msg (x : List Nat × List (Nat × Msg)) {k : Call} {m : Msg} (h : msg? k = some m) :
    exec1 x k = (x.1, x.2 ++ x.1.map (·, m)) := by
  cases k <;> simp [msg?] at h <;> subst h <;> rfl

theorem inv_step {s s' : St} (h : Inv s) (hs : Step s s') : Inv s' := by
  cases hs with
  | acquire t c cs hn ht =>
    have he : exec (s.hist.map Prod.snd) = (s.consumers, s.trace) := by
      cases h with
      | idle _ h => exact h
      | done t h => rw [hn] at h; simp at h
      | push t c h h' => rw [hn] at h'; simp at h'
      | deliver t m i h k tr h' => rw [hn] at h'; simp at h'
    cases c with
    | register k => exact .push t k s.hist rfl rfl he
    | start p => exact .deliver t (.start p) 0 s.hist (.start p) s.trace rfl rfl rfl (Nat.zero_le _) he (by simp)
    | stop => exact .deliver t .stop 0 s.hist .stop s.trace rfl rfl rfl (Nat.zero_le _) he (by simp)
  | push t c hh =>
    cases h with
    | idle h => rw [hh] at h; simp at h
    | done t h => rw [hh] at h; simp at h
    | deliver t m i h k tr h' => rw [hh] at h'; simp at h'
    | push t' c' h h1 h2 h3 =>
      rw [hh] at h1
      simp only [Option.some.injEq, Prod.mk.injEq, Phase.push.injEq] at h1
      obtain ⟨rfl, rfl⟩ := h1
      refine .done t rfl ?_
      simp only [h2, List.map_append, List.map_cons, List.map_nil]
      rw [exec_snoc, h3]; rfl
  | deliver t m i c hh hc =>
    cases h with
    | idle h => rw [hh] at h; simp at h
    | done t h => rw [hh] at h; simp at h
    | push t' c' h h1 => rw [hh] at h1; simp at h1
    | deliver t' m' i' h k tr h1 h2 h3 h4 h5 h6 =>
      rw [hh] at h1
      simp only [Option.some.injEq, Prod.mk.injEq, Phase.deliver.injEq] at h1
      obtain ⟨rfl, rfl, rfl⟩ := h1
      have hi : i < s.consumers.length := (List.getElem?_eq_some_iff.1 hc).1
      refine .deliver t m (i + 1) h k tr rfl h2 h3 hi h5 ?_
      simp only [h6]
      rw [List.take_add_one, hc]
      simp
  | finish t m i hh hl =>
    cases h with
    | idle h => rw [hh] at h; simp at h
    | done t h => rw [hh] at h; simp at h
    | push t' c' h h1 => rw [hh] at h1; simp at h1
    | deliver t' m' i' h k tr h1 h2 h3 h4 h5 h6 =>
      rw [hh] at h1
      simp only [Option.some.injEq, Prod.mk.injEq, Phase.deliver.injEq] at h1
      obtain ⟨rfl, rfl, rfl⟩ := h1
      refine .done t rfl ?_
      simp only [h2, List.map_append, List.map_cons, List.map_nil]
      rw [exec_snoc, h5, exec1_msg _ h3, h6, List.take_of_length_le hl]
  | release t hh =>
    cases h with
    | idle h => rw [hh] at h; simp at h
    | done t h h' => exact .idle rfl h'
    | push t' c' h h1 => rw [hh] at h1; simp at h1
    | deliver t' m' i' h k tr h1 => rw [hh] at h1; simp at h1

theorem reach_inv {prog : Nat → List Call} {s : St} (h : Reach prog s) : Inv s := by
  induction h with
  | init => exact .idle rfl rfl
  | step _ hs ih => exact inv_step ih hs

/-- The consumers registered by a sequence of calls. -/
def regs (cs : List Call) : List Nat := cs.filterMap fun | .register c => some c | _ => none

theorem exec_consumers (cs : List Call) : (exec cs).1 = regs cs := by
  induction cs using List.reverseRecOn with
  | nil => rfl
  | append_singleton cs c ih =>
    rw [exec_snoc]; cases c <;> simp [exec1, ih, regs]

theorem expected_none {c : Nat} {cs : List Call} (h : Call.register c ∉ cs) : expected c cs = [] := by
  have : cs.dropWhile (· ≠ .register c) = [] := by
    induction cs with
    | nil => rfl
    | cons a cs ih =>
      rw [List.mem_cons, not_or] at h
      have ha : decide (a ≠ Call.register c) = true := by simp; exact fun e => h.1 e.symm
      rw [List.dropWhile_cons, if_pos ha]; exact ih h.2
  rw [expected, this]; rfl

theorem expected_snoc {c : Nat} {cs : List Call} (k : Call) (h : Call.register c ∈ cs) :
    expected c (cs ++ [k]) = expected c cs ++ (msg? k).toList := by
  unfold expected
  induction cs with
  | nil => simp at h
  | cons a cs ih =>
    by_cases ha : a = .register c
    · subst ha
      simp only [List.cons_append, List.dropWhile_cons, ne_eq, not_true_eq_false, decide_false, Bool.false_eq_true, if_false,
        List.drop_succ_cons, List.drop_zero, List.filterMap_append]
      cases k <;> simp [msg?]
    · have h' : Call.register c ∈ cs := (List.mem_cons.1 h).resolve_left fun e => ha e.symm
      simp only [List.cons_append, List.dropWhile_cons, ne_eq, ha, not_false_eq_true, decide_true, if_true]
      exact ih h'

theorem mem_regs {c : Nat} {cs : List Call} : c ∈ regs cs ↔ Call.register c ∈ cs := by
  unfold regs
  rw [List.mem_filterMap]
  constructor
  · rintro ⟨a, ha, h⟩
    cases a <;> simp at h
    subst h; exact ha
  · intro h; exact ⟨_, h, rfl⟩

theorem filter_eq_replicate {l : List Nat} (hn : l.Nodup) (c : Nat) (m : Msg) :
    (((l.map (·, m)).filter (fun e => e.1 = c)).map Prod.snd) = if c ∈ l then [m] else [] := by
  induction l with
  | nil => rfl
  | cons a l ih =>
    rw [List.nodup_cons] at hn
    have ih := ih hn.2
    by_cases ha : a = c
    · subst ha
      rw [if_neg hn.1] at ih
      simp only [List.map_cons, List.filter_cons, decide_true, if_true, ih, List.mem_cons, true_or]
    · simp only [List.map_cons, List.filter_cons, ha, decide_false, Bool.false_eq_true, if_false, ih, List.mem_cons,
        ]
      have : (c = a) = False := by simp; exact fun h => ha h.symm
      simp [this]

theorem exec_received (c : Nat) (cs : List Call) (hn : (regs cs).Nodup) :
    ((exec cs).2.filter (fun e => e.1 = c)).map Prod.snd = expected c cs := by
  induction cs using List.reverseRecOn with
  | nil => rfl
  | append_singleton cs k ih =>
    have hr : regs (cs ++ [k]) = regs cs ++ regs [k] := by simp [regs]
    rw [hr] at hn
    have hn' : (regs cs).Nodup := hn.of_append_left
    have ih := ih hn'
    have key : ∀ m, msg? k = some m → ((exec (cs ++ [k])).2.filter (fun e => e.1 = c)).map Prod.snd = expected c (cs ++ [k]) := by
      intro m hm
      rw [exec_snoc, exec1_msg _ hm]
      simp only [List.filter_append, List.map_append, ih]
      rw [exec_consumers, filter_eq_replicate hn']
      by_cases hc : Call.register c ∈ cs
      · rw [if_pos (mem_regs.2 hc), expected_snoc k hc, hm]; rfl
      · have hk : Call.register c ∉ cs ++ [k] := by
          rw [List.mem_append, not_or]; refine ⟨hc, ?_⟩
          rw [List.mem_singleton]; rintro rfl; simp [msg?] at hm
        rw [if_neg (fun h => hc (mem_regs.1 h)), expected_none hc, expected_none hk]; rfl
    cases k with
    | start p => exact key _ rfl
    | stop => exact key _ rfl
    | register d =>
      rw [exec_snoc]
      show ((exec cs).2.filter _).map _ = _
      rw [ih]
      by_cases hc : Call.register c ∈ cs
      · rw [expected_snoc _ hc]; simp [msg?]
      · rw [expected_none hc]
        unfold expected
        have h0 : ∀ x ∈ cs, decide (x ≠ .register c) = true := by
          intro x hx; simp; rintro rfl; exact hc hx
        rw [List.dropWhile_append_of_pos h0]
        by_cases hd : d = c <;> simp [hd, List.dropWhile, msg?]

/-- **C107, program order.** The calls get the mutex in an order in which those of each thread are in the order in which it makes them, each
once. -/
theorem program_order (prog : Nat → List Call) (s : St) (h : Reach prog s) (t : Nat) :
    (s.hist.filter (fun e => e.1 = t)).map Prod.snd ++ s.todo t = prog t := by
  induction h with
  | init => rfl
  | step _ hs ih =>
    cases hs with
    | acquire u c cs hn ht =>
      by_cases hu : u = t
      · subst hu
        rw [ht] at ih
        simp only [List.filter_append, List.map_append, if_true]
        rw [List.append_assoc, ← ih]; simp
      · have hu' : ¬ t = u := fun h => hu h.symm
        simp only [List.filter_append, List.map_append, hu', if_false]
        rw [← ih]; simp [hu]
    | push => exact ih
    | deliver => exact ih
    | finish => exact ih
    | release => exact ih

/-- **C107, messages.** At every moment of every execution by any number of threads, a consumer has got exactly the messages of the calls that
were completed after its registration, in their order, each once; and perhaps already the one of the call in progress. -/
theorem received_spec (prog : Nat → List Call) (ho : Once prog) (s : St) (h : Reach prog s) (c : Nat) :
    received c s = expected c ((completed s).map Prod.snd) ∨
    ∃ t k, s.hist = completed s ++ [(t, k)] ∧ received c s = expected c (s.hist.map Prod.snd) := by
  have hn := ho s h
  have hinv := reach_inv h
  cases hinv with
  | idle h1 h2 =>
    left
    have := exec_received c (s.hist.map Prod.snd) hn
    rw [h2] at this
    simpa [received, completed, h1] using this
  | done t h1 h2 =>
    left
    have := exec_received c (s.hist.map Prod.snd) hn
    rw [h2] at this
    simpa [received, completed, h1] using this
  | push t k g h1 h2 h3 =>
    left
    have hn' : (regs (g.map Prod.snd)).Nodup := by
      have : regs (s.hist.map Prod.snd) = regs (g.map Prod.snd) ++ [k] := by rw [h2]; simp [regs]
      have hh : (regs (s.hist.map Prod.snd)).Nodup := hn
      rw [this] at hh; exact hh.of_append_left
    have := exec_received c (g.map Prod.snd) hn'
    rw [h3] at this
    simpa [received, completed, h1, h2] using this
  | deliver t m i g k tr h1 h2 h3 h4 h5 h6 =>
    have hr : regs (s.hist.map Prod.snd) = regs (g.map Prod.snd) := by
      rw [h2]; cases k <;> simp [msg?] at h3 <;> simp [regs]
    have hn' : (regs (g.map Prod.snd)).Nodup := hr ▸ (show (regs (s.hist.map Prod.snd)).Nodup from hn)
    have e1 := exec_received c (g.map Prod.snd) hn'
    rw [h5] at e1
    have hcons : s.consumers = regs (g.map Prod.snd) := by
      have := exec_consumers (g.map Prod.snd); rw [h5] at this; exact this
    have hcomp : completed s = g := by simp [completed, h1, h2]
    have hnt : (s.consumers.take i).Nodup := (hcons ▸ hn').sublist (List.take_sublist ..)
    have hrec : received c s = expected c (g.map Prod.snd) ++ if c ∈ s.consumers.take i then [m] else [] := by
      unfold received
      rw [h6, List.filter_append, List.map_append, filter_eq_replicate hnt]
      rw [← e1]
    by_cases hc : c ∈ s.consumers.take i
    · right
      refine ⟨t, k, by rw [hcomp, h2], ?_⟩
      have hm : Call.register c ∈ g.map Prod.snd := mem_regs.1 (hcons ▸ List.mem_of_mem_take hc)
      rw [hrec, if_pos hc, h2, List.map_append, List.map_cons, List.map_nil, expected_snoc k hm, h3]; rfl
    · left
      rw [hrec, if_neg hc, hcomp, List.append_nil]

/-- **C107, no deadlock.** As long as a thread has something to call or holds the mutex, some thread can make a step. -/
theorem progress (prog : Nat → List Call) (s : St) (_h : Reach prog s) (hw : s.holder ≠ none ∨ ∃ t, s.todo t ≠ []) : ∃ s', Step s s' := by
  cases hh : s.holder with
  | none =>
    rcases hw with hw | ⟨t, ht⟩
    · exact absurd hh hw
    · cases hc : s.todo t with
      | nil => exact absurd hc ht
      | cons c cs => exact ⟨_, .acquire s t c cs hh hc⟩
  | some x =>
    obtain ⟨t, p⟩ := x
    cases p with
    | push c => exact ⟨_, .push s t c hh⟩
    | done => exact ⟨_, .release s t hh⟩
    | deliver m i =>
      by_cases hi : i < s.consumers.length
      · exact ⟨_, .deliver s t m i _ hh (List.getElem?_eq_getElem hi)⟩
      · exact ⟨_, .finish s t m i hh (by omega)⟩

theorem expected_start {c p : Nat} {cs : List Call} (h : (expected c cs).getLast? = some (.start p)) :
    ∃ a b, cs = a ++ .start p :: b ∧ Call.stop ∉ b := by
  unfold expected at h
  have key : ∀ l : List Call, (l.filterMap msg?).getLast? = some (.start p) → ∃ a b, l = a ++ .start p :: b ∧ Call.stop ∉ b := by
    intro l
    induction l using List.reverseRecOn with
    | nil => intro h; simp at h
    | append_singleton l k ih =>
      intro h
      cases k with
      | register d =>
        have : (l.filterMap msg?).getLast? = some (.start p) := by simpa [msg?] using h
        obtain ⟨a, b, rfl, hb⟩ := ih this
        exact ⟨a, b ++ [.register d], by simp, by simp [hb]⟩
      | start q =>
        have : q = p := by simpa [msg?] using h
        subst this
        exact ⟨l, [], rfl, by simp⟩
      | stop => simp [msg?] at h
  obtain ⟨a, b, hab, hb⟩ := key _ h
  refine ⟨cs.takeWhile (· ≠ .register c) ++ ((cs.dropWhile (· ≠ .register c)).take 1 ++ a), b, ?_, hb⟩
  rw [List.append_assoc, List.append_assoc, ← hab, List.take_append_drop, List.takeWhile_append_dropWhile]

/-- Where something that occurs at most once stands. -/
theorem split_unique {x : Call} {a b a' b' : List Call} (h : a ++ x :: b = a' ++ x :: b') (hc : (a ++ x :: b).count x ≤ 1) : b = b' := by
  have ha : x ∉ a := by
    intro hm
    rw [List.count_append, List.count_cons_self] at hc
    have := List.count_pos_iff.2 hm
    omega
  have ha' : x ∉ a' := by
    intro hm
    rw [h, List.count_append, List.count_cons_self] at hc
    have := List.count_pos_iff.2 hm
    omega
  clear hc
  induction a generalizing a' with
  | nil =>
    cases a' with
    | nil => simpa using h
    | cons y a' => simp at h; exact absurd (by simp [h.1]) ha'
  | cons y a ih =>
    cases a' with
    | nil => simp at h; exact absurd (by simp [h.1]) ha
    | cons z a' =>
      simp only [List.cons_append, List.cons.injEq] at h
      exact ih h.2 (fun hm => ha (by simp [hm])) (fun hm => ha' (by simp [hm]))

/-- **C107, life time.** If each provider is given to `Start` at most once, a consumer whose last message is `Start` with `p` is never
left with a provider whose run has ended: no `Stop` after that `Start`, by whatever thread, has been completed. -/
theorem provider_alive (prog : Nat → List Call) (ho : Once prog) (s : St) (h : Reach prog s) (c p : Nat)
    (hu : (s.hist.map Prod.snd).count (.start p) ≤ 1) (hl : (received c s).getLast? = some (.start p))
    (a b : List Call) (hc : (completed s).map Prod.snd = a ++ .start p :: b) : Call.stop ∉ b := by
  rcases received_spec prog ho s h c with hr | ⟨t, k, hh, hr⟩
  · rw [hr] at hl
    obtain ⟨a', b', he, hb⟩ := expected_start hl
    have hcount : ((completed s).map Prod.snd).count (.start p) ≤ 1 := by
      refine Nat.le_trans (List.Sublist.count_le _ (List.Sublist.map _ ?_)) hu
      unfold completed
      split
      · exact List.Sublist.refl _
      · exact List.Sublist.refl _
      · exact List.dropLast_sublist _
    rw [hc] at he hcount
    rw [split_unique he hcount]; exact hb
  · rw [hr] at hl
    have hmap : s.hist.map Prod.snd = a ++ .start p :: (b ++ [k]) := by
      rw [hh, List.map_append, hc]; simp
    intro hs
    obtain ⟨a', b', he, hb⟩ := expected_start hl
    rw [hmap] at he hu
    exact hb (split_unique he hu ▸ List.mem_append_left _ hs)

/-- **C107, a run's end.** Once a thread has come back from the `Stop` after its `Start` with `p`, no consumer is left with `p`: what `p` names
may be destroyed, as `GeneratePropellerProfiles` does (`RegistryStopper` before `main_status`, llvm_propeller_profile_generator.cc 150-161). -/
theorem run_over (prog : Nat → List Call) (ho : Once prog) (s : St) (h : Reach prog s) (t p : Nat)
    (hu : (s.hist.map Prod.snd).count (.start p) ≤ 1) (x y : List Call)
    (hc : ((completed s).filter (fun e => e.1 = t)).map Prod.snd = x ++ .start p :: y) (hy : Call.stop ∈ y) (c : Nat) :
    (received c s).getLast? ≠ some (.start p) := by
  intro hl
  rw [List.map_eq_append_iff] at hc
  obtain ⟨f1, f2, hf, h1, h2⟩ := hc
  rw [List.map_eq_cons_iff] at h2
  obtain ⟨e, f3, rfl, he, h3⟩ := h2
  rw [List.filter_eq_append_iff] at hf
  obtain ⟨l1, l2, hl12, _, hf2⟩ := hf
  rw [List.filter_eq_cons_iff] at hf2
  obtain ⟨m1, m2, rfl, _, _, hf3⟩ := hf2
  have hb := provider_alive prog ho s h c p hu hl ((l1 ++ m1).map Prod.snd) (m2.map Prod.snd) (by
    rw [hl12]; simp [he])
  apply hb
  rw [← h3, List.mem_map] at hy
  obtain ⟨z, hz, hzs⟩ := hy
  rw [← hf3] at hz
  exact List.mem_map.2 ⟨z, (List.mem_filter.1 hz).1, hzs⟩

/-- `Once` follows from the programs. -/
theorem once_of (prog : Nat → List Call) (h1 : ∀ t, (regs (prog t)).Nodup)
    (h2 : ∀ t u c, t ≠ u → c ∈ regs (prog t) → c ∉ regs (prog u)) : Once prog := by
  intro s hs
  have po := program_order prog s hs
  have : ∀ hist : List (Nat × Call), (∀ t, ∃ r, (hist.filter (fun e => e.1 = t)).map Prod.snd ++ r = prog t) →
      (regs (hist.map Prod.snd)).Nodup := by
    intro hist
    induction hist using List.reverseRecOn with
    | nil => intro _; simp [regs]
    | append_singleton hist e ih =>
      intro hp
      obtain ⟨t, k⟩ := e
      have ih' := ih (fun u => by
        obtain ⟨r, hr⟩ := hp u
        by_cases hu : t = u
        · exact ⟨k :: r, by rw [← hr]; simp [hu]⟩
        · exact ⟨r, by rw [← hr]; simp [hu]⟩)
      cases k with
      | start p => simpa [regs] using ih'
      | stop => simpa [regs] using ih'
      | register c =>
        have hr : regs ((hist ++ [(t, Call.register c)]).map Prod.snd) = regs (hist.map Prod.snd) ++ [c] := by simp [regs]
        rw [hr, List.nodup_append]
        refine ⟨ih', by simp, ?_⟩
        rintro x hx y hy rfl
        rw [List.mem_singleton] at hy; subst hy
        rw [mem_regs, List.mem_map] at hx
        obtain ⟨⟨u, k⟩, hm, hk⟩ := hx
        simp only at hk; subst hk
        obtain ⟨r, hr⟩ := hp t
        by_cases hu : u = t
        · subst hu
          have hn := h1 u
          rw [← hr] at hn
          have hin : Call.register x ∈ (hist.filter (fun e => e.1 = u)).map Prod.snd :=
            List.mem_map.2 ⟨(u, .register x), List.mem_filter.2 ⟨hm, by simp⟩, rfl⟩
          have hsplit : regs (List.map Prod.snd (List.filter (fun e => decide (e.1 = u)) (hist ++ [(u, Call.register x)])) ++ r) =
              regs ((hist.filter (fun e => e.1 = u)).map Prod.snd) ++ (x :: regs r) := by simp [regs]
          rw [hsplit, List.nodup_append] at hn
          exact hn.2.2 x (mem_regs.2 hin) x (by simp) rfl
        · refine h2 t u x (fun e => hu e.symm) ?_ ?_
          · rw [← hr, mem_regs]; simp
          · obtain ⟨r', hr'⟩ := hp u
            rw [← hr', mem_regs]
            refine List.mem_append_left _ (List.mem_map.2 ⟨(u, .register x), List.mem_filter.2 ⟨by simp [hm], by simp⟩, rfl⟩)
  exact this s.hist fun t => ⟨s.todo t, po t⟩

/-! ## Concrete cases -/

/-- Thread 0 registers a consumer and runs with provider 5; thread 1 registers another one and runs with provider 6. -/
def exProg : Nat → List Call
  | 0 => [.register 10, .start 5, .stop]
  | 1 => [.register 11, .start 6, .stop]
  | _ => []

theorem ex_once : Once exProg := by
  apply once_of
  · intro t; match t with
    | 0 => decide
    | 1 => decide
    | _ + 2 => simp [exProg, regs]
  · intro t u c htu h1 h2
    match t, u with
    | 0, 0 => exact htu rfl
    | 1, 1 => exact htu rfl
    | 0, 1 => simp [exProg, regs] at h1 h2; omega
    | 1, 0 => simp [exProg, regs] at h1 h2; omega
    | _ + 2, _ => simp [exProg, regs] at h1
    | 0, _ + 2 => simp [exProg, regs] at h2
    | 1, _ + 2 => simp [exProg, regs] at h2

/-- A consumer registered after `Start` is stopped without having been started, and the end of one thread's run stops the consumers of the other's. -/
theorem late_violated : expected 11 [.register 10, .start 5, .register 11, .stop] = [.stop] ∧
    expected 10 [.register 10, .start 5, .register 11, .start 6, .stop] = [.start 5, .start 6, .stop] := by decide

def lateProg : Nat → List Call
  | 0 => [.start 5, .stop]
  | 1 => [.register 11]
  | _ => []

/-- The same in an execution: the consumer of thread 1 is told of the end of a run of whose beginning it was never told. -/
theorem late_reach_violated : ∃ s, Reach lateProg s ∧ received 11 s = [.stop] ∧ s.holder = none := by
  have h0 := Reach.init (prog := lateProg)
  have h1 := h0.step (.acquire _ 0 (.start 5) [.stop] rfl rfl)
  have h2 := h1.step (.finish _ 0 (.start 5) 0 rfl (by decide))
  have h3 := h2.step (.release _ 0 rfl)
  have h4 := h3.step (.acquire _ 1 (.register 11) [] rfl rfl)
  have h5 := h4.step (.push _ 1 11 rfl)
  have h6 := h5.step (.release _ 1 rfl)
  have h7 := h6.step (.acquire _ 0 .stop [] rfl rfl)
  have h8 := h7.step (.deliver _ 0 .stop 0 11 rfl rfl)
  have h9 := h8.step (.finish _ 0 .stop 1 rfl (by decide))
  have h10 := h9.step (.release _ 0 rfl)
  exact ⟨_, h10, by decide, rfl⟩

/-- The first message reaches the consumer while the call is in progress. -/
theorem ex_reach : ∃ s, Reach exProg s ∧ received 10 s = [.start 5] ∧ s.holder = some (0, .deliver (.start 5) 1) := by
  have h0 := Reach.init (prog := exProg)
  have h1 := h0.step (.acquire _ 0 (.register 10) [.start 5, .stop] rfl rfl)
  have h2 := h1.step (.push _ 0 10 rfl)
  have h3 := h2.step (.release _ 0 rfl)
  have h4 := h3.step (.acquire _ 0 (.start 5) [.stop] rfl rfl)
  have h5 := h4.step (.deliver _ 0 (.start 5) 0 10 rfl rfl)
  exact ⟨_, h5, by decide, rfl⟩

/-- Thread 0 has come back from its run: its consumer was told of the beginning and of the end. -/
theorem ex_over : ∃ s, Reach exProg s ∧ ((completed s).filter (fun e => e.1 = 0)).map Prod.snd = [.register 10] ++ .start 5 :: [.stop] ∧
    (s.hist.map Prod.snd).count (.start 5) ≤ 1 ∧ received 10 s = [.start 5, .stop] := by
  have h0 := Reach.init (prog := exProg)
  have h1 := h0.step (.acquire _ 0 (.register 10) [.start 5, .stop] rfl rfl)
  have h2 := h1.step (.push _ 0 10 rfl)
  have h3 := h2.step (.release _ 0 rfl)
  have h4 := h3.step (.acquire _ 0 (.start 5) [.stop] rfl rfl)
  have h5 := h4.step (.deliver _ 0 (.start 5) 0 10 rfl rfl)
  have h6 := h5.step (.finish _ 0 (.start 5) 1 rfl (by decide))
  have h7 := h6.step (.release _ 0 rfl)
  have h8 := h7.step (.acquire _ 0 .stop [] rfl rfl)
  have h9 := h8.step (.deliver _ 0 .stop 0 10 rfl rfl)
  have h10 := h9.step (.finish _ 0 .stop 1 rfl (by decide))
  have h11 := h10.step (.release _ 0 rfl)
  exact ⟨_, h11, by decide, by decide, by decide⟩

end Verif.Registry
