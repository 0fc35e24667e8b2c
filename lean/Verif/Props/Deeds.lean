import Verif.Lemmas.Seen
import Verif.Props.Provenance
import Verif.Props.Shift
/-! # Why keys are pressed and things are seen (properties C73 and C74) -/
namespace Verif.Props
open Verif Verif.Spec

variable {s : Sim} {C : Cfg} {w : Mach} {args : Option EnvArgs} {t : ℚ}

/-- C73: whenever it is reported that a key was pressed, the key is on the keyboard, and it has been reported before that a rule fired with
the action `+name> v` for this buffer, whose conditions had held with certain values of its variables. After it fired, the buffer was a
motor buffer. If the request is as C36 assumes it to be (different slot names, the chunk type of motor requests as the library defines it,
every slot within the cases of C13, and upper case without special characters), the key is the one that `v` asks for with these values. -/
theorem C73 (hp : NothingAsked w) (h : Reachable C w args t s) {l1 l2 : List (ℚ × Ev)} {q : ℚ} {e : Ev} (htr : s.trace = l1 ++ (q, e) :: l2)
    {k : String} (he : e.act = .pressed k) : OnKeyboard k ∧ ∃ f rhs ch, HeldBefore C w args t s f ∧ HasFired l1 f ∧ f.body.rhs = .ok rhs ∧ (⟨'+', e.proc⟩, .chunk ch) ∈ rhs ∧
      FoundBefore C w args t s f fun m => ForHands m e.proc ∧
        (ManualRequest C.P m.reg ch f.bv → (∀ k', Spec.Asks f.bv ch "key" (.str k') → ∀ c ∈ (C.upper k').toList, c ≠ '=' ∧ c ≠ '!') → ∃ k', AsksPress f.bv ch k' ∧ k = C.upper k') := by
  obtain ⟨f, rhs, v, h1, h2, h3, h4, h5⟩ := told_asked hp h htr (r := some (.key k)) (by rw [he]; rfl)
  have h6 := h5 _ rfl
  obtain ⟨_, _, _, m, _, _, _, _, _, _, _, ⟨_, ch, _, _, _, _, rfl, hc, hk⟩, _⟩ := h6
  refine ⟨motorCreate_keyboard hc hk, f, rhs, ch, h1, h2, h3, h4, foundBefore_mono (fun m hm => ?_) (h5 _ rfl)⟩
  obtain ⟨b, ch', reg', new, g1, g2, g3, g4, g5⟩ := hm
  cases g3
  refine ⟨⟨b, g1, g2⟩, fun hr hs => ?_⟩
  obtain ⟨k', a1, a2, rfl, a4⟩ := C36_sound hr C.upper hs g4
  refine ⟨k', a1, ?_⟩
  have : slotValue (PressChunk (C.upper k')) "key" = .ok (.str (C.upper k')) := rfl
  rw [this] at g5
  cases g5
  rfl

/-- C74, objects: whenever it is reported that an object was encoded, it has been reported before that a rule fired with the action
`+name> v` for this buffer, whose conditions had held with certain values of its variables. After it fired, there was an object on the
screen that the chunk depicts: it is of the type given for the object, has its text as value (if there are no special characters in it), its
other attributes as slots, and the pixel where it was as position.
If the slots of the request are different and within the cases of C13, `v` asks with these values for the place where the object was. -/
theorem C74_object (hp : NothingAsked w) (h : Reachable C w args t s) {l1 l2 : List (ℚ × Ev)} {q : ℚ} {e : Ev} (htr : s.trace = l1 ++ (q, e) :: l2)
    {c : Chunk} (he : e.act = .encoded c) : ∃ f rhs ch, HeldBefore C w args t s f ∧ HasFired l1 f ∧ f.body.rhs = .ok rhs ∧ (⟨'+', e.proc⟩, .chunk ch) ∈ rhs ∧
      FoundBefore C w args t s f fun m => ∃ o p, IsShown m o p ∧ Depicts c o p ∧
        (C.P.H.CollisionFree → Named ch → (∀ n x, MentionsSlot ch n x → PlainRequest f.bv x ∧ Ordinary f.bv x) → ∃ v, Spec.Asks f.bv ch "screen_pos" v ∧ PlaceIs C v p) := by
  obtain ⟨f, rhs, v, h1, h2, h3, h4, h5⟩ := told_asked hp h htr (r := some (.object c)) (by rw [he]; rfl)
  have h6 := h5 _ rfl
  obtain ⟨_, _, _, m, _, _, _, _, _, _, _, ⟨_, _, ch, _, _, _, _, _, _, _, _, _, _, _, rfl, _⟩, _⟩ := h6
  refine ⟨f, rhs, ch, h1, h2, h3, h4, foundBefore_mono (fun m hm => ?_) (h5 _ rfl)⟩
  obtain ⟨b, env, ch', mods, screen, x, o, y, p, reg', g1, g2, g3, g4, g5, g6, g7, g8, g9, g10, g11, g12⟩ := hm
  cases g5
  refine ⟨o, p, ⟨env, screen, x, g3, g4, g8, g9⟩, visChunk_depicts g12 g9, fun cf hn hf => ?_⟩
  have hpl := placeIs_of g10 g11
  have hm0 : ManualRequest C.P [("_manual", ["cmd", "key"])] ch f.bv := ⟨cf, hn, rfl, hf⟩
  rcases resolve_cases hm0 with ⟨_, hb⟩ | ⟨_, mods', hb, _, _, hback⟩
  · rw [hb] at g6; cases g6
  · rw [hb] at g6; cases g6
    obtain ⟨z, v, hz, rfl, hs⟩ := hback _ _ (alook_mem g7)
    refine ⟨v, ⟨z, hz, ?_⟩, hpl⟩
    rcases hs with hs | ⟨_, hs⟩
    · exact hs
    · subst hs
      obtain ⟨_, _, _, _, hv, _⟩ := hpl
      cases hv

/-- C74, locations: whenever it is reported that a location was encoded, or that none was, it has been reported before that a rule fired with
the action `+name> v` for this buffer, whose conditions had held with certain values of its variables. If there is a location, there was an
object there after the rule fired; and in the cases of C39 it is as `v` demands with these values, and no other one was better. -/
theorem C74_location (hp : NothingAsked w) (h : Reachable C w args t s) {l1 l2 : List (ℚ × Ev)} {q : ℚ} {e : Ev} (htr : s.trace = l1 ++ (q, e) :: l2)
    {r : Option Chunk} (he : e.act = .encodedLoc r) : ∃ f rhs v, HeldBefore C w args t s f ∧ HasFired l1 f ∧ f.body.rhs = .ok rhs ∧ (⟨'+', e.proc⟩, v) ∈ rhs ∧
      ∀ c, r = some c → FoundBefore C w args t s f fun m => (∃ o p, IsShown m o p ∧ Pixel c p) ∧
        ∃ b env screen stim ch, alook e.proc m.bufs = some b ∧ m.env = some env ∧ env.stimulus = some screen ∧ v = .chunk ch ∧
          (SearchRequest C.P m.reg ch f.bv → b.seen.length ≤ b.finst → SimpleSearch ch f.bv (screen.map Prod.snd) → (b.finst = 0 → m.extraTest e.proc "attended" ≠ some true) →
            (Spec.Asks f.bv ch "screen_y" (.str "closest") → ∃ v, Spec.Asks f.bv ch "screen_x" v) →
            GoodSearch C.pyInt f.bv ch (m.extraTest e.proc "attended") b.seen env.focus (screen.map Prod.snd) (some c) stim) := by
  obtain ⟨f, rhs, v, h1, h2, h3, h4, h5⟩ := told_asked hp h htr (r := r.map .location) (by rw [he]; rfl)
  refine ⟨f, rhs, v, h1, h2, h3, h4, fun c hc => foundBefore_mono (fun m hm => ?_) (h5 (.location c) (by rw [hc]; rfl))⟩
  have hm : OnScreen C m e.proc v f.bv c := hm
  obtain ⟨o, p, hs, hpx⟩ := onScreen_shown hm
  refine ⟨⟨o, p, hs, hpx⟩, ?_⟩
  obtain ⟨b, env, ch, reg', stim, g1, g2, g3, g4⟩ := hm
  obtain ⟨env', screen, x, k1, k2, _⟩ := hs
  rw [g2] at k1; cases k1
  rw [k2] at g4
  exact ⟨b, env, screen, stim, ch, g1, g2, k2, g3, fun a1 a2 a3 a4 a5 => C39_partial _ _ _ _ _ _ _ _ _ _ _ _ _ a1 a2 a3 a4 a5 g4⟩

/-! ## Examples -/

/-- There is a report of this kind. -/
def Stepped.says (p : Act → Bool) : Stepped → Bool
  | .ok s => s.trace.any fun x => p x.2.act
  | _ => false

theorem says_report {C : Cfg} {w : Mach} {args : Option EnvArgs} {t : ℚ} {n : ℕ} {p : Act → Bool} (h : Stepped.says p (stepsOf C n (Sim.init w args t)) = true) :
    ∃ s l1 q e l2, Reachable C w args t s ∧ s.trace = l1 ++ (q, e) :: l2 ∧ p e.act = true := by
  cases hs : stepsOf C n (Sim.init w args t) with
  | ok s =>
    rw [hs] at h
    obtain ⟨⟨q, e⟩, hx, he⟩ := List.any_eq_true.1 h
    obtain ⟨l1, l2, htr⟩ := List.append_of_mem hx
    exact ⟨s, l1, q, e, l2, stepsOf_ok .init hs, htr, he⟩
  | _ => rw [hs] at h; cases h

/-- C73, an instance: the key A is pressed. -/
example : ∃ s l1 q e l2, Reachable exC exPresser exEnvArgs 0 s ∧ s.trace = l1 ++ (q, e) :: l2 ∧ e.act = .pressed "A" ∧
    ∃ f rhs ch, HeldBefore exC exPresser exEnvArgs 0 s f ∧ HasFired l1 f ∧ f.body.rhs = .ok rhs ∧ (⟨'+', e.proc⟩, .chunk ch) ∈ rhs ∧
      FoundBefore exC exPresser exEnvArgs 0 s f fun m => ForHands m e.proc := by
  have hr : Stepped.says (fun | .pressed k => k == "A" | _ => false) (stepsOf exC 100 exSim) = true := by decide +kernel
  obtain ⟨s, l1, q, e, l2, hreach, htr, he⟩ := says_report hr
  have hk : e.act = .pressed "A" := by
    split at he
    · rename_i k hk; rw [hk, eq_of_beq he]
    · cases he
  obtain ⟨_, f, rhs, ch, h1, h2, h3, h4, h5⟩ := C73 (fun n i d hm => by cases hm) hreach htr hk
  exact ⟨s, l1, q, e, l2, hreach, htr, hk, f, rhs, ch, h1, h2, h3, h4, foundBefore_mono (fun m hm => hm.1) h5⟩

/-- Two coordinates are read. -/
noncomputable def exWatchC : Cfg := { exFullC with pyFloat := fun s => if s = "7" then some 7 else if s = "0" then some 0 else Option.none }

/-- A rule that searches for b: `?where> buffer empty, ?what> buffer empty ==> +where> value b`. -/
def exSearchRule : CRule :=
  ⟨⟨.ok [(⟨'?', "where"⟩, .dict [("buffer", "empty")]), (⟨'?', "what"⟩, .dict [("buffer", "empty")])],
    .ok [(⟨'+', "where"⟩, .chunk ⟨"_visuallocation", [("color", .empty), ("screen_x", .empty), ("screen_y", .empty), ("value", .vv (exLit "b"))]⟩)]⟩, 0, Option.none⟩

/-- A rule that looks there: `=where> isa _visuallocation ==> +what> cmd move_attention, screen_pos =where`. -/
def exAttendRule : CRule :=
  ⟨⟨.ok [(⟨'=', "where"⟩, .chunk ⟨"_visuallocation", [("color", .empty), ("screen_x", .empty), ("screen_y", .empty), ("value", .empty)]⟩)],
    .ok [(⟨'+', "what"⟩, .chunk ⟨"_visual", [("cmd", .vv (exLit "move_attention")), ("color", .empty), ("screen_pos", .vv (exVar "where")), ("value", .empty)]⟩)]⟩, 0, Option.none⟩

/-- A model that looks at what it searches for. -/
def exWatcher : Mach :=
  { exMach exShiftReg [("where", { exBuf .visualLocation with dm := some 0 }), ("what", { exBuf .visual with attend := false, dm := some 0 })] with
    mems := [⟨[], [], [], []⟩], rules := [("search", exSearchRule), ("attend", exAttendRule)], ordered := ["search", "attend"], env := some ⟨0, (0, 0), [], [], [], Option.none, Option.none⟩ }

/-- A screen with two objects. -/
def exWatched : Option EnvArgs := some ⟨.list [.screen [("s", exStim "b" 7 0), ("u", exStim "a" 0 7)]], .single (.many []), .single 10, 0⟩

/-- The text of a slot. -/
def textOf (c : Chunk) (n : String) : Option String := match alook n c.slots with
  | some (.vv ⟨.str s, _, _, _⟩) => some s
  | _ => Option.none

/-- C74_object, an instance: b is seen, and not a. -/
example : ∃ s l1 q e l2 c, Reachable exWatchC exWatcher exWatched 0 s ∧ s.trace = l1 ++ (q, e) :: l2 ∧ e.act = .encoded c ∧ textOf c "value" = some "b" ∧
    ∃ f rhs ch, HeldBefore exWatchC exWatcher exWatched 0 s f ∧ HasFired l1 f ∧ f.body.rhs = .ok rhs ∧ (⟨'+', e.proc⟩, .chunk ch) ∈ rhs ∧
      FoundBefore exWatchC exWatcher exWatched 0 s f fun m => ∃ o p, IsShown m o p ∧ Depicts c o p := by
  have hr : Stepped.says (fun | .encoded c => textOf c "value" == some "b" | _ => false) (stepsOf exWatchC 80 (Sim.init exWatcher exWatched 0)) = true := by decide +kernel
  obtain ⟨s, l1, q, e, l2, hreach, htr, he⟩ := says_report hr
  have hk : ∃ c, e.act = .encoded c ∧ textOf c "value" = some "b" := by
    split at he
    · rename_i c hc; exact ⟨c, hc, eq_of_beq he⟩
    · cases he
  obtain ⟨c, hc, ht⟩ := hk
  obtain ⟨f, rhs, ch, h1, h2, h3, h4, h5⟩ := C74_object (fun n i d hm => by cases hm) hreach htr hc
  exact ⟨s, l1, q, e, l2, c, hreach, htr, hc, ht, f, rhs, ch, h1, h2, h3, h4, foundBefore_mono (fun m hm => by obtain ⟨o, p, a, b, _⟩ := hm; exact ⟨o, p, a, b⟩) h5⟩

/-- C74_location, an instance: the place where b is. -/
example : ∃ s l1 q e l2 c, Reachable exWatchC exWatcher exWatched 0 s ∧ s.trace = l1 ++ (q, e) :: l2 ∧ e.act = .encodedLoc (some c) ∧ textOf c "screen_x" = some "7" ∧
    ∃ f rhs v, HeldBefore exWatchC exWatcher exWatched 0 s f ∧ HasFired l1 f ∧ f.body.rhs = .ok rhs ∧ (⟨'+', e.proc⟩, v) ∈ rhs ∧
      FoundBefore exWatchC exWatcher exWatched 0 s f fun m => ∃ o p, IsShown m o p ∧ Pixel c p := by
  have hr : Stepped.says (fun | .encodedLoc (some c) => textOf c "screen_x" == some "7" | _ => false) (stepsOf exWatchC 30 (Sim.init exWatcher exWatched 0)) = true := by decide +kernel
  obtain ⟨s, l1, q, e, l2, hreach, htr, he⟩ := says_report hr
  have hk : ∃ c, e.act = .encodedLoc (some c) ∧ textOf c "screen_x" = some "7" := by
    split at he
    · rename_i c hc; exact ⟨c, hc, eq_of_beq he⟩
    · cases he
  obtain ⟨c, hc, ht⟩ := hk
  obtain ⟨f, rhs, v, h1, h2, h3, h4, h5⟩ := C74_location (fun n i d hm => by cases hm) hreach htr hc
  exact ⟨s, l1, q, e, l2, c, hreach, htr, hc, ht, f, rhs, v, h1, h2, h3, h4, foundBefore_mono (fun m hm => hm.1) (h5 c rfl)⟩

end Verif.Props
