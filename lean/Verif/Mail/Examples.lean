import Verif.Mail.Props
/-! # Mail checking: examples -/
set_option autoImplicit false

namespace Yash.Mail

open Spec

/-- An encoding that can be computed; `60` is the only number. -/
def demoConfig : Config where
  integer := fun v => if v = "60".toList then some 60 else none
  encode := List.map Char.toNat
  wcstombs := fun s => some (s.map Char.toNat)

/-- `MAILPATH='/a\:b%You:/c:/a\:b'`: the first file twice. -/
def demoPath : Str := "/a\\:b%You\\: mail:/c:/a\\:b".toList

def demoEvent (now : Int) (a c : Option Info) : Event where
  mailcheck := some "60".toList
  mailpath := .scalar demoPath
  mail := none
  now := some now
  stat := fun p => if p = "/a:b".toList.map Char.toNat then a else if p = "/c".toList.map Char.toNat then c else none
  posix := false

theorem demo_writes : Writes [("/a:b".toList, some "You\\: mail".toList), ("/c".toList, none), ("/a:b".toList, none)] demoPath := by
  have h1 : PathText "/a:b".toList "/a\\:b".toList :=
    .chr (by decide) (by decide) (by decide) (.chr (by decide) (by decide) (by decide) (.esc (.chr (by decide) (by decide) (by decide) .nil)))
  have h2 : PathText "/c".toList "/c".toList := .chr (by decide) (by decide) (by decide) (.chr (by decide) (by decide) (by decide) .nil)
  have h3 : MessageText "You\\: mail".toList := by
    refine .chr (by decide) (by decide) (.chr (by decide) (by decide) (.chr (by decide) (by decide) (.esc ?_)))
    refine .chr (by decide) (by decide) (.chr (by decide) (by decide) (.chr (by decide) (by decide) (.chr (by decide) (by decide) (.chr (by decide) (by decide) .nil))))
  exact Writes.cons (.message h1 h3) (.cons (.plain h2) (.one (.plain h1)))

theorem demo_looks (now : Int) (a c : Option Info) : Looks demoConfig (demoEvent now a c)
    [("/a:b".toList.map Char.toNat, .text "You\\: mail".toList), ("/c".toList.map Char.toNat, .newMail), ("/a:b".toList.map Char.toNat, .newMail)] :=
  .scalar (xs := [("/a:b".toList, some "You\\: mail".toList), ("/c".toList, none), ("/a:b".toList, none)]) rfl demo_writes

theorem demo_due (now : Int) (a c : Option Info) (s : State) (h : 60 ≤ now - s.last) : Due demoConfig (demoEvent now a c) s :=
  ⟨60, now, ⟨by decide, "60".toList, by decide, rfl, rfl⟩, rfl, h⟩

/-- Mail comes to the first file between two checks: one message. -/
example : (checkMail demoConfig (demoEvent 1060 (some ⟨5, ⟨1010, 7⟩⟩) none) (runAll demoConfig [demoEvent 1000 none none, demoEvent 1030 (some ⟨5, ⟨1010, 7⟩⟩) none] .initial)).2 =
    [.text "You\\: mail".toList] := by
  classical
  rw [changes_reported (els := [("/a:b".toList.map Char.toNat, .text "You\\: mail".toList), ("/c".toList.map Char.toNat, .newMail), ("/a:b".toList.map Char.toNat, .newMail)])
    (demo_due _ _ _ _ (by decide)) (demo_looks _ _ _) ?_ ?_ (demo_looks _ _ _)]
  · have h1 : HasMail (demoEvent 1060 (some ⟨5, ⟨1010, 7⟩⟩) none) ("/a:b".toList.map Char.toNat) ∧
        mtime (demoEvent 1000 none none) ("/a:b".toList.map Char.toNat) ≠ mtime (demoEvent 1060 (some ⟨5, ⟨1010, 7⟩⟩) none) ("/a:b".toList.map Char.toNat) :=
      ⟨⟨⟨5, ⟨1010, 7⟩⟩, by decide, by decide, .inl (by decide)⟩, by decide⟩
    have h2 : ¬(HasMail (demoEvent 1060 (some ⟨5, ⟨1010, 7⟩⟩) none) ("/c".toList.map Char.toNat) ∧
        mtime (demoEvent 1000 none none) ("/c".toList.map Char.toNat) ≠ mtime (demoEvent 1060 (some ⟨5, ⟨1010, 7⟩⟩) none) ("/c".toList.map Char.toNat)) :=
      fun h => absurd h.2 (by decide)
    rw [show firsts [("/a:b".toList.map Char.toNat, Message.text "You\\: mail".toList), ("/c".toList.map Char.toNat, .newMail), ("/a:b".toList.map Char.toNat, .newMail)] =
      [("/a:b".toList.map Char.toNat, Message.text "You\\: mail".toList), ("/c".toList.map Char.toNat, .newMail)] by decide]
    rw [List.filter_cons_of_pos (by simpa using h1), List.filter_cons_of_neg (by simpa using h2)]
    rfl
  · refine ⟨⟨60, by decide, "60".toList, by decide, rfl, rfl⟩, ?_, trivial⟩
    rintro ⟨n, t, ⟨h0, v, h1, h2, h3⟩, h4, h5⟩
    cases h2
    cases h3
    cases h4
    revert h5
    decide +kernel
  · exact demo_due _ _ _ _ (by decide +kernel)

/-- Without `MAILCHECK` mail checking is off. -/
example (s : State) : Off demoConfig { demoEvent 5 none none with mailcheck := none } s := by
  refine .inl ?_
  rintro ⟨n, -, v, -, h, -⟩
  cases h

end Yash.Mail
