import Verif.Checkpoint.Disk

/-!
# C27: replacing the checkpoint metadata is atomic

After a crash at any system call, over any number of checkpoints, crashes and restarts, `kvd-ckp-gen` is absent or holds
the complete contents of a committed checkpoint, not older than the one found at the last start (`never_partial`).
During one checkpoint it is the previous or the new contents (`previous_or_new`).  If all directories are on one file
system that keeps the order of directory changes, the part files it refers to are complete as well (`parts_complete`).
The directory is never synced: commits that have returned can be undone by a crash (`commits_undone`), and with
directories on different file systems the part files may be gone (`parts_lost`).
-/
namespace Verif.Props.C27
open Verif.Key (Bytes)
open Verif.Disk

/-- In every crash image `kvd-ckp-gen` is absent or complete. -/
theorem never_partial {num : Bytes → Option Nat} {n : Nat} {dir : Name → Nat} (hdir : dir .gen = dir .tmp) {s : Server}
    (h : Reachable dir num n s) (cut : Nat → Nat) (junk : Nat → Bytes) :
    ((image dir cut junk s.fs).1 .gen = none ∧ s.base = 0) ∨
    ∃ x c, (image dir cut junk s.fs).1 .gen = some x ∧ c ∈ s.done ∧ (image dir cut junk s.fs).2 x = c.info ∧
      num c.info = some c.gen ∧ s.base ≤ c.gen ∧ c.gen ≤ s.gen := by
  have hi := reachable_inv hdir h
  have ht : topGen s ≤ s.gen := by unfold topGen; split <;> omega
  rcases (crash_inv hdir hi.fs cut junk rfl).2 with ⟨h1, h2⟩ | ⟨x, c, h1, h2, _, h4, h5, h6, h7, _⟩
  · exact .inl ⟨h1, h2⟩
  · exact .inr ⟨x, c, h1, h2, h4, h5, h6, by omega⟩

/-- If all files are in one directory, so are the part files that the recovery reads. -/
theorem parts_complete {num : Bytes → Option Nat} {n : Nat} {dir : Name → Nat} (hdir : ∀ a b, dir a = dir b) {s : Server}
    (h : Reachable dir num n s) (cut : Nat → Nat) (junk : Nat → Bytes) :
    (image dir cut junk s.fs).1 .gen = none ∨
    ∃ x c, (image dir cut junk s.fs).1 .gen = some x ∧ c ∈ s.done ∧ (image dir cut junk s.fs).2 x = c.info ∧ num c.info = some c.gen ∧
      ∀ i, i < n → ∃ y, (image dir cut junk s.fs).1 (.part c.gen i) = some y ∧ (image dir cut junk s.fs).2 y = c.body i := by
  have hi := reachable_inv (hdir _ _) h
  rcases (crash_inv (hdir _ _) hi.fs cut junk rfl).2 with ⟨h1, h2⟩ | ⟨x, c, h1, h2, _, h4, h5, h6, h7, _, h9⟩
  · exact .inl h1
  · refine .inr ⟨x, c, h1, h2, h4, h5, fun i hi => ?_⟩
    obtain ⟨y, e1, _, e3⟩ := h9 hdir i hi
    exact ⟨y, e1, e3⟩

/-! ### One checkpoint -/

/-- Neither a crash nor the start of another checkpoint. -/
def Act.Within : Act → Prop
  | .crash _ _ => False
  | .begin _ => False
  | _ => True

theorem creat_keeps {one : Prop} {num : Bytes → Option Nat} {n : Nat} {d : Fs} {done : List Round} {base top : Nat}
    (h : FsInv one num n d done base top) {a : Name} (ha : a = .tmp ∨ ∃ g i, a = .part g i) {N : Names} (hN : N ∈ d.hist) {x : Nat}
    (hx : N .gen = some x) : (d.creat a).2.data x = d.data x ∧ (d.creat a).2.synced x = d.synced x := by
  unfold Fs.creat
  split
  · next y hy =>
    have hne : x ≠ y := by
      rintro rfl
      rcases h.cross N hN _ (mem_hist d) _ _ _ hx hy with e | ⟨_, e⟩
      · subst e; rcases ha with ha | ⟨_, _, ha⟩ <;> cases ha
      · rcases e with e | e
        · subst e; rcases ha with ha | ⟨_, _, ha⟩ <;> cases ha
        · subst e; exact h.tmp _ hy N hN hx
    exact ⟨put_ne _ _ hne, put_ne _ _ hne⟩
  · have hne : x ≠ d.next := by have := h.fresh N hN _ _ hx; omega
    exact ⟨put_ne _ _ hne, put_ne _ _ hne⟩

theorem creat_hist {d : Fs} {a : Name} (ha : a ≠ .gen) {N : Names} (hN : N ∈ (d.creat a).2.hist) :
    ∃ N' ∈ d.hist, N' .gen = N .gen := by
  unfold Fs.creat at hN
  split at hN
  · exact ⟨N, hN, rfl⟩
  · simp only [Fs.hist, Fs.setNames, List.mem_cons] at hN
    rcases hN with rfl | rfl | hN
    · exact ⟨d.names, mem_hist d, by rw [put_ne _ _ (Ne.symm ha)]⟩
    · exact ⟨_, mem_hist d, rfl⟩
    · exact ⟨N, by simp [Fs.hist, hN], rfl⟩

theorem write_keeps {one : Prop} {num : Bytes → Option Nat} {n : Nat} {d : Fs} {done : List Round} {base top : Nat}
    (h : FsInv one num n d done base top) {a : Name} (ha : a = .tmp ∨ ∃ g i, a = .part g i) {y : Nat} (hy : d.names a = some y) (bs : Bytes)
    {N : Names} (hN : N ∈ d.hist) {x : Nat} (hx : N .gen = some x) : (d.write y bs).data x = d.data x ∧ (d.write y bs).synced x = d.synced x := by
  have hne : x ≠ y := by
    rintro rfl
    rcases h.cross N hN _ (mem_hist d) _ _ _ hx hy with e | ⟨_, e⟩
    · subst e; rcases ha with ha | ⟨_, _, ha⟩ <;> cases ha
    · rcases e with e | e
      · subst e; rcases ha with ha | ⟨_, _, ha⟩ <;> cases ha
      · subst e; exact h.tmp _ hy N hN hx
  exact ⟨put_ne _ _ hne, put_ne _ _ hne⟩

/-- What `kvd-ckp-gen` holds in a table of names. -/
def content (s : Server) (N : Names) : Option Bytes := (N .gen).map s.fs.data

/-- Every table of names has the old contents or, after the rename, the new. -/
def Two (old : Option Bytes) (s : Server) : Prop :=
  ∀ N ∈ s.fs.hist, (∀ x, N .gen = some x → s.fs.synced x = true) ∧
    (content s N = old ∨ (content s N = some s.info ∧ (s.phase = .idle ∨ ∃ k, s.phase = .renamed k)))

theorem exec_two {num : Bytes → Option Nat} {n : Nat} {dir : Name → Nat} {one : Prop} {old : Option Bytes} {s s' : Server}
    {a : Act} (h : Inv one num n s) (ht : Two old s) (hw : Act.Within a) (he : exec dir num n s a = some s') : Two old s' := by
  obtain ⟨hf, hp, _⟩ := h
  -- steps that keep the names and what `gen` refers to
  have keep : ∀ (d : Fs) (ph : Phase) (inf : Bytes), (∀ N ∈ d.hist, ∃ N' ∈ s.fs.hist, N' .gen = N .gen) →
      (∀ N ∈ s.fs.hist, ∀ x, N .gen = some x → d.data x = s.fs.data x ∧ (s.fs.synced x = true → d.synced x = true)) →
      (∀ N ∈ s.fs.hist, content s N = old ∨ (content s N = some inf ∧ (ph = .idle ∨ ∃ k, ph = .renamed k))) →
      Two old { s with fs := d, phase := ph, info := inf } := by
    intro d ph inf h1 h2 h3 N hN
    obtain ⟨N', hN', e⟩ := h1 N hN
    refine ⟨fun x hx => ?_, ?_⟩
    · exact (h2 N' hN' x (e.trans hx)).2 ((ht N' hN').1 x (e.trans hx))
    · have hcon : content { s with fs := d, phase := ph, info := inf } N = content s N' := by
        unfold content
        rw [e]
        cases hx : N .gen with
        | none => rfl
        | some x => simp only [Option.map_some, (h2 N' hN' x (e.trans hx)).1]
      rw [hcon]
      exact h3 N' hN'
  have busy : (∀ k, s.phase ≠ .renamed k) → s.phase ≠ .idle → ∀ N ∈ s.fs.hist, content s N = old := by
    intro h1 h2 N hN
    rcases (ht N hN).2 with h | ⟨_, h | ⟨k, h⟩⟩
    · exact h
    · exact absurd h h2
    · exact absurd h (h1 k)
  cases a with
  | begin body => exact hw.elim
  | crash c j => exact hw.elim
  | openPart i =>
    simp only [exec] at he
    split at he
    · next st hph =>
      split at he
      · split at he
        · cases he
          refine keep _ _ _ (fun N hN => creat_hist (by simp) hN) (fun N hN x hx => ?_) (fun N hN => .inl (busy (by simp [hph]) (by simp [hph]) N hN))
          have := creat_keeps hf (.inr ⟨_, _, rfl⟩) hN hx (a := .part s.gen i)
          exact ⟨this.1, fun hs => this.2.trans hs⟩
        · cases he
      · cases he
    · cases he
  | writePart i k =>
    simp only [exec] at he
    split at he
    · next st hph =>
      split at he
      · next x rest hst =>
        cases he
        simp only [PhaseInv, hph] at hp
        have hi := hp.2 i
        rw [hst] at hi
        refine keep _ _ _ (fun N hN => ⟨N, hN, rfl⟩) (fun N hN x hx => ?_) (fun N hN => .inl (busy (by simp [hph]) (by simp [hph]) N hN))
        have := write_keeps hf (.inr ⟨_, _, rfl⟩) hi.1 (rest.take k) hN hx
        exact ⟨this.1, fun hs => this.2.trans hs⟩
      · cases he
    · cases he
  | syncPart i =>
    simp only [exec] at he
    split at he
    · next st hph =>
      split at he
      · next x hst =>
        cases he
        refine keep _ _ _ (fun N hN => ⟨N, hN, rfl⟩) (fun N hN x hx => ⟨rfl, fun hs => ?_⟩) (fun N hN => .inl (busy (by simp [hph]) (by simp [hph]) N hN))
        simp only [Fs.fsync, put]
        split
        · rfl
        · exact hs
      · cases he
    · cases he
  | prepared =>
    simp only [exec] at he
    split at he
    · next st hph =>
      split at he
      · cases he
        exact keep _ _ _ (fun N hN => ⟨N, hN, rfl⟩) (fun N hN x hx => ⟨rfl, id⟩) (fun N hN => .inl (busy (by simp [hph]) (by simp [hph]) N hN))
      · cases he
    · cases he
  | openTmp info =>
    simp only [exec] at he
    split at he
    · next hph =>
      split at he
      · cases he
        refine keep _ _ _ (fun N hN => creat_hist (by simp) hN) (fun N hN x hx => ?_) (fun N hN => .inl (busy (by simp [hph]) (by simp [hph]) N hN))
        have := creat_keeps hf (.inl rfl) hN hx (a := .tmp)
        exact ⟨this.1, fun hs => this.2.trans hs⟩
      · cases he
    · cases he
  | writeTmp k =>
    simp only [exec] at he
    split at he
    · next x rest hph =>
      cases he
      simp only [PhaseInv, hph] at hp
      refine keep _ _ _ (fun N hN => ⟨N, hN, rfl⟩) (fun N hN x hx => ?_) (fun N hN => .inl (busy (by simp [hph]) (by simp [hph]) N hN))
      have := write_keeps hf (.inl rfl) hp.2.2.1 (rest.take k) hN hx
      exact ⟨this.1, fun hs => this.2.trans hs⟩
    · cases he
  | syncTmp =>
    simp only [exec] at he
    split at he
    · next x hph =>
      cases he
      refine keep _ _ _ (fun N hN => ⟨N, hN, rfl⟩) (fun N hN x hx => ⟨rfl, fun hs => ?_⟩) (fun N hN => .inl (busy (by simp [hph]) (by simp [hph]) N hN))
      simp only [Fs.fsync, put]
      split
      · rfl
      · exact hs
    · cases he
  | rename =>
    simp only [exec] at he
    split at he
    · next x hph =>
      cases he
      simp only [PhaseInv, hph] at hp
      obtain ⟨_, _, p3, p4, p5, _⟩ := hp
      intro N hN
      simp only [Fs.hist, Fs.rename, Fs.setNames, List.mem_cons] at hN
      have old' : ∀ N ∈ s.fs.hist, (∀ x, N .gen = some x → s.fs.synced x = true) ∧ content s N = old :=
        fun N hN => ⟨(ht N hN).1, busy (by simp [hph]) (by simp [hph]) N hN⟩
      rcases hN with rfl | hN
      · have hg : put (put s.fs.names .gen (s.fs.names .tmp)) .tmp none .gen = some x := by
          rw [put_ne _ _ (by simp), put_self]; exact p3
        refine ⟨fun y hy => ?_, .inr ⟨?_, .inr ⟨0, rfl⟩⟩⟩
        · rw [hg] at hy; cases hy; exact p5
        · unfold content; rw [hg]; exact congrArg some p4
      · have := old' N (by simp only [Fs.hist, List.mem_cons]; exact hN)
        exact ⟨this.1, .inl this.2⟩
    · cases he
  | unlink =>
    simp only [exec] at he
    split at he
    · next k hph =>
      split at he
      · cases he
        refine keep _ _ _ (fun N hN => ?_) (fun N hN x hx => ⟨rfl, id⟩) (fun N hN => ?_)
        · simp only [Fs.hist, Fs.unlink, Fs.setNames, List.mem_cons] at hN
          rcases hN with rfl | hN
          · exact ⟨_, mem_hist _, by rw [put_ne _ _ (by simp)]⟩
          · exact ⟨N, by simp only [Fs.hist, List.mem_cons]; exact hN, rfl⟩
        · rcases (ht N hN).2 with h | ⟨h, _⟩
          · exact .inl h
          · exact .inr ⟨h, .inr ⟨_, rfl⟩⟩
      · cases he
    · cases he
  | finish =>
    simp only [exec] at he
    split at he
    · next k hph =>
      split at he
      · cases he
      · cases he
        refine keep _ _ _ (fun N hN => ⟨N, hN, rfl⟩) (fun N hN x hx => ⟨rfl, id⟩) (fun N hN => ?_)
        rcases (ht N hN).2 with h | ⟨h, _⟩
        · exact .inl h
        · exact .inr ⟨h, .inl rfl⟩
    · cases he

/-- What the file holds in a crash image. -/
def imageContent (dir : Name → Nat) (cut : Nat → Nat) (junk : Nat → Bytes) (d : Fs) : Option Bytes :=
  ((image dir cut junk d).1 .gen).map (image dir cut junk d).2

/-- During and after one checkpoint, begun when no earlier replacement of `kvd-ckp-gen` was pending in the directory,
a crash image has the contents from before or the complete new contents. -/
theorem previous_or_new {num : Bytes → Option Nat} {n : Nat} {dir : Name → Nat} (hdir : dir .gen = dir .tmp) {s s' : Server} (h : Reachable dir num n s)
    (hold : ∀ N ∈ s.fs.hist, N .gen = s.fs.names .gen) (body : Nat → Bytes) (as : List Act) (hw : ∀ a ∈ as, Act.Within a)
    (hr : runActs dir num n (.begin body :: as) s = some s') (cut : Nat → Nat) (junk : Nat → Bytes) :
    imageContent dir cut junk s'.fs = (s.fs.names .gen).map s.fs.data ∨ imageContent dir cut junk s'.fs = some s'.info := by
  have hi := reachable_inv hdir h
  simp only [runActs] at hr
  cases hb : exec dir num n s (.begin body) with
  | none => rw [hb] at hr; cases hr
  | some s1 =>
    rw [hb] at hr
    simp only [Option.bind_some] at hr
    have hi1 := exec_inv hdir hi hb
    have h1 : Two ((s.fs.names .gen).map s.fs.data) s1 := by
      simp only [exec] at hb
      split at hb
      · cases hb
        intro N hN
        refine ⟨fun x hx => ?_, .inl ?_⟩
        · rcases hi.fs.complete N hN with ⟨c, _⟩ | ⟨y, c, c1, _, c3, _⟩
          · rw [hx] at c; cases c
          · rw [hx] at c1; cases c1; exact c3
        · unfold content; rw [hold N hN]
      · cases hb
    have key : ∀ as s1, (∀ a ∈ as, Act.Within a) → Inv (∀ a b, dir a = dir b) num n s1 → Two ((s.fs.names .gen).map s.fs.data) s1 →
        runActs dir num n as s1 = some s' → Two ((s.fs.names .gen).map s.fs.data) s' := by
      intro as
      induction as with
      | nil => intro s1 _ _ h2 h3; cases h3; exact h2
      | cons a as ih =>
        intro s1 hw hi h2 h3
        simp only [runActs] at h3
        cases he : exec dir num n s1 a with
        | none => rw [he] at h3; cases h3
        | some s2 => rw [he] at h3; exact ih s2 (fun a ha => hw a (by simp [ha])) (exec_inv hdir hi he) (exec_two hi h2 (hw a (by simp)) he) h3
    have h2 := key as s1 hw hi1 h1 hr
    obtain ⟨hs, hc⟩ := h2 _ (image_mem s'.fs (cut (dir .gen)))
    have hg : imageContent dir cut junk s'.fs = content s' (s'.fs.hist[min (cut (dir .gen)) s'.fs.past.length]?.getD s'.fs.names) := by
      unfold imageContent content
      have e1 : (image dir cut junk s'.fs).1 .gen = (s'.fs.hist[min (cut (dir .gen)) s'.fs.past.length]?.getD s'.fs.names) .gen := rfl
      rw [e1]
      cases hx : (s'.fs.hist[min (cut (dir .gen)) s'.fs.past.length]?.getD s'.fs.names) .gen with
      | none => rfl
      | some x => simp only [Option.map_some, image, hs x hx, if_true]
    rw [hg]
    rcases hc with hc | ⟨hc, _⟩
    · exact .inl hc
    · exact .inr hc

/-! ### Concrete cases -/

/-- One checkpoint by one thread, with contents `b` and metadata `[g]`. -/
def round (g b : UInt8) : List Act :=
  [.begin fun _ => [b, b], .openPart 0, .writePart 0 1, .writePart 0 1, .syncPart 0, .prepared, .openTmp [g], .writeTmp 1, .syncTmp,
   .rename, .unlink, .finish]

def num : Bytes → Option Nat
  | [b] => some b.toNat
  | _ => none

/-- What a crash image holds: `kvd-ckp-gen` and the part files of generations 1 and 2. -/
def look (dir : Name → Nat) (cut : Nat → Nat) (as : List Act) : Option (List (Option Bytes)) :=
  (runActs dir num 1 as start).map fun s =>
    let m := image dir cut (fun _ => [255]) s.fs
    [(m.1 .gen).map m.2, (m.1 (.part 1 0)).map m.2, (m.1 (.part 2 0)).map m.2]

/-- Two checkpoints; the crash finds the second one. -/
example : look (fun _ => 0) (fun _ => 0) (round 1 7 ++ round 2 8) = some [some [2], none, some [8, 8]] := by decide +kernel

/-- A crash while the second checkpoint is being written leaves the first; its part file is still there. -/
example : look (fun _ => 0) (fun _ => 0) (round 1 7 ++ (round 2 8).take 8) = some [some [1], some [7, 7], some [8, 8]] := by decide +kernel

/-- A checkpoint after such a crash reuses the generation and the files left behind. -/
example : look (fun _ => 0) (fun _ => 0) (round 1 7 ++ (round 2 8).take 3 ++ [.crash (fun _ => 0) fun _ => [255]] ++ round 2 9) =
    some [some [2], none, some [9, 9]] := by decide +kernel

/-- The directory is not synced: two checkpoints were committed, the caller was told so, and a crash undoes both. -/
theorem commits_undone : look (fun _ => 0) (fun _ => 100) (round 1 7 ++ round 2 8) = some [none, none, none] ∧
    (runActs (fun _ => 0) num 1 (round 1 7 ++ round 2 8) start).map (fun s => s.done.length) = some 2 := by decide +kernel

/-- With the part files on another file system the crash can leave generation 1 in `kvd-ckp-gen` when the part files of
generation 1 have been removed; the recovery then fails an assertion (/repo/mtd.cc:1337). -/
theorem parts_lost : look (fun a => match a with | .part _ _ => 1 | _ => 0) (fun d => if d = 0 then 2 else 0) (round 1 7 ++ round 2 8) =
    some [some [1], none, some [8, 8]] := by decide +kernel

theorem within_demo : ∀ a ∈ (round 2 8).tail, Act.Within a := by
  intro a ha
  simp only [round, List.tail_cons, List.mem_cons, List.not_mem_nil, or_false] at ha
  rcases ha with rfl | rfl | rfl | rfl | rfl | rfl | rfl | rfl | rfl | rfl | rfl <;> trivial

/-- The hypotheses of `previous_or_new` hold after a restart. -/
example : ∃ s s', Reachable (fun _ => 0) num 1 s ∧ (∀ N ∈ s.fs.hist, N .gen = s.fs.names .gen) ∧ s.fs.names .gen ≠ none ∧
    runActs (fun _ => 0) num 1 (round 2 8) s = some s' ∧
    ∀ cut junk, imageContent (fun _ => 0) cut junk s'.fs = (s.fs.names .gen).map s.fs.data ∨ imageContent (fun _ => 0) cut junk s'.fs = some s'.info := by
  have h1 : ((runActs (fun _ => 0) num 1 (round 1 7 ++ [.crash (fun _ => 0) fun _ => []]) start).map fun s =>
      ((s.fs.names .gen).isSome, s.fs.past.length, (runActs (fun _ => 0) num 1 (round 2 8) s).isSome)) = some (true, 0, true) := by decide +kernel
  cases hr : runActs (fun _ => 0) num 1 (round 1 7 ++ [.crash (fun _ => 0) fun _ => []]) start with
  | none => rw [hr] at h1; cases h1
  | some s =>
    rw [hr] at h1
    simp only [Option.map_some, Option.some.injEq, Prod.mk.injEq] at h1
    obtain ⟨g1, g2, g3⟩ := h1
    obtain ⟨s', hs'⟩ := Option.isSome_iff_exists.mp g3
    have hold : ∀ N ∈ s.fs.hist, N .gen = s.fs.names .gen := by
      intro N hN
      simp only [Fs.hist, List.length_eq_zero_iff.mp g2, List.mem_singleton] at hN
      rw [hN]
    have hre : Reachable (fun _ => 0) num 1 s := ⟨_, hr⟩
    exact ⟨s, s', hre, hold, (by intro e; rw [e] at g1; cases g1), hs', fun cut junk => previous_or_new rfl hre hold _ _ within_demo hs' cut junk⟩

end Verif.Props.C27
