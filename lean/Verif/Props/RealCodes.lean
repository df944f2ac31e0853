import Verif.Props.Checked
/-
Code objects compiled by CPython 3.11.10, with the instructions of `with`, `try`/`finally`, nested `try`, generators and coroutines, that pass the test of C69
(Props/Checked). The stack maps were computed from the code objects by a program that need not be trusted.
-/
namespace Verif
open Spec

/--
    def tryfinally(self):
        self.acquire()
        try:
            if self.stream and hasattr(self.stream, "flush"):
                self.stream.flush()
        finally:
            self.release()
-/
def tryFinallyCode : Code where
  argcount := 1
  posonlyargcount := 0
  kwonlyargcount := 0
  nlocals := 1
  stacksize := 4
  flags := 3
  code := [151, 0, 124, 0, 160, 0, 0, 0, 0, 0, 0, 0, 0, 0, 0, 0, 0, 0, 0, 0, 0, 0, 0, 0, 0, 0, 166, 0, 0, 0, 171, 0, 0, 0, 0, 0, 0, 0, 0, 0, 1, 0,
    9, 0, 124, 0, 106, 1, 0, 0, 0, 0, 0, 0, 0, 0, 114, 46, 116, 5, 0, 0, 0, 0, 0, 0, 0, 0, 0, 0, 124, 0, 106, 1, 0, 0, 0, 0, 0, 0, 0, 0, 100, 1, 166,
    2, 0, 0, 171, 2, 0, 0, 0, 0, 0, 0, 0, 0, 114, 25, 124, 0, 106, 1, 0, 0, 0, 0, 0, 0, 0, 0, 160, 3, 0, 0, 0, 0, 0, 0, 0, 0, 0, 0, 0, 0, 0, 0, 0, 0,
    0, 0, 0, 0, 166, 0, 0, 0, 171, 0, 0, 0, 0, 0, 0, 0, 0, 0, 1, 0, 124, 0, 160, 4, 0, 0, 0, 0, 0, 0, 0, 0, 0, 0, 0, 0, 0, 0, 0, 0, 0, 0, 0, 0, 166,
    0, 0, 0, 171, 0, 0, 0, 0, 0, 0, 0, 0, 0, 1, 0, 100, 0, 83, 0, 35, 0, 124, 0, 160, 4, 0, 0, 0, 0, 0, 0, 0, 0, 0, 0, 0, 0, 0, 0, 0, 0, 0, 0, 0, 0,
    166, 0, 0, 0, 171, 0, 0, 0, 0, 0, 0, 0, 0, 0, 1, 0, 119, 0, 120, 3, 89, 0, 119, 1]
  consts := [.other 0, .str "flush"]
  names := ["acquire", "stream", "hasattr", "flush", "release"]
  varnames := ["self"]
  filename := "<string>"
  name := "tryfinally"
  qualname := "tryfinally"
  firstlineno := 2
  linetable := [128, 0, 216, 4, 8, 135, 76, 130, 76, 129, 78, 132, 78, 128, 78, 240, 2, 4, 5, 23, 216, 11, 15, 140, 59, 240, 0, 1, 9, 32, 157, 55,
    160, 52, 164, 59, 176, 7, 209, 27, 56, 212, 27, 56, 240, 0, 1, 9, 32, 216, 12, 16, 140, 75, 215, 12, 29, 210, 12, 29, 209, 12, 31, 212, 12, 31,
    208, 12, 31, 224, 8, 12, 143, 12, 138, 12, 137, 14, 140, 14, 136, 14, 136, 14, 136, 14, 248, 136, 4, 143, 12, 138, 12, 137, 14, 140, 14, 136, 14,
    136, 14, 248, 248, 248]
  exctable := [150, 53, 65, 33, 0, 193, 33, 22, 65, 55, 3]
  freevars := []
  cellvars := []

/-- Its stack map, block by block. -/
def tryFinallyMap : MapData where
  entry := [some (0, none), some (0, some (⟨0, 4, false, none⟩, true)), some (0, some (⟨0, 4, false, none⟩, true)), some (0, none), some (1, none),
    some (3, none)]
  base := [0, 0, 0, 0, 0, 1]
  joins := [false, false, false, true, false, false]
  before := [[], [0], [0, 1], [0], [0], [0, 4]]

theorem tryFinally_checked : checkedB Py311.platform true tryFinallyCode tryFinallyMap = true := by decide +kernel

/--
    def nestedtry(p):
        try:
            try:
                f(p)
            except KeyError as e:
                g(e)
        except (OSError, ValueError):
            return None
        else:
            h()
-/
def nestedTryCode : Code where
  argcount := 1
  posonlyargcount := 0
  kwonlyargcount := 0
  nlocals := 2
  stacksize := 4
  flags := 3
  code := [151, 0, 9, 0, 9, 0, 116, 1, 0, 0, 0, 0, 0, 0, 0, 0, 0, 0, 124, 0, 166, 1, 0, 0, 171, 1, 0, 0, 0, 0, 0, 0, 0, 0, 1, 0, 110, 38, 35, 0,
    116, 2, 0, 0, 0, 0, 0, 0, 0, 0, 0, 0, 36, 0, 114, 25, 125, 1, 116, 5, 0, 0, 0, 0, 0, 0, 0, 0, 0, 0, 124, 1, 166, 1, 0, 0, 171, 1, 0, 0, 0, 0, 0,
    0, 0, 0, 1, 0, 89, 0, 100, 0, 125, 1, 126, 1, 110, 8, 100, 0, 125, 1, 126, 1, 119, 1, 119, 0, 120, 3, 89, 0, 119, 1, 116, 7, 0, 0, 0, 0, 0, 0, 0,
    0, 0, 0, 166, 0, 0, 0, 171, 0, 0, 0, 0, 0, 0, 0, 0, 0, 1, 0, 100, 0, 83, 0, 35, 0, 116, 8, 0, 0, 0, 0, 0, 0, 0, 0, 0, 0, 116, 10, 0, 0, 0, 0, 0,
    0, 0, 0, 0, 0, 102, 2, 36, 0, 114, 4, 1, 0, 89, 0, 100, 0, 83, 0, 119, 0, 120, 3, 89, 0, 119, 1]
  consts := [.other 0]
  names := ["f", "KeyError", "g", "h", "OSError", "ValueError"]
  varnames := ["p", "e"]
  filename := "<string>"
  name := "nestedtry"
  qualname := "nestedtry"
  firstlineno := 10
  linetable := [128, 0, 240, 2, 8, 5, 12, 240, 2, 3, 9, 17, 221, 12, 13, 136, 97, 137, 68, 140, 68, 136, 68, 136, 68, 248, 221, 15, 23, 240, 0, 1,
    9, 17, 240, 0, 1, 9, 17, 240, 0, 1, 9, 17, 221, 12, 13, 136, 97, 137, 68, 140, 68, 136, 68, 136, 68, 136, 68, 136, 68, 136, 68, 136, 68, 248, 248,
    248, 248, 240, 3, 1, 9, 17, 248, 248, 248, 245, 10, 0, 9, 10, 137, 3, 140, 3, 136, 3, 136, 3, 136, 3, 248, 245, 7, 0, 13, 20, 149, 90, 208, 11,
    32, 240, 0, 1, 5, 20, 240, 0, 1, 5, 20, 240, 0, 1, 5, 20, 216, 15, 19, 136, 116, 136, 116, 240, 3, 1, 5, 20, 248, 248, 248]
  exctable := [131, 15, 19, 0, 146, 1, 65, 9, 0, 147, 10, 54, 3, 157, 15, 49, 3, 172, 5, 65, 9, 0, 177, 5, 54, 3, 182, 3, 65, 9, 0, 193, 9, 17, 65,
    30, 3, 193, 29, 1, 65, 30, 3]
  freevars := []
  cellvars := []

/-- Its stack map, block by block. -/
def nestedTryMap : MapData where
  entry := [some (0, none), some (1, none), some (2, some (⟨2, 5, true, none⟩, true)), some (3, none), some (2, some (⟨2, 5, true, none⟩, true)),
    some (3, none), some (0, none), some (1, none), some (2, some (⟨8, 10, true, none⟩, true)), some (2, some (⟨8, 10, true, none⟩, true)), some (3,
    none)]
  base := [0, 0, 0, 1, 0, 1, 0, 0, 0, 0, 1]
  joins := [false, false, false, false, false, false, false, false, false, false, false]
  before := [[], [0], [0, 1], [0, 1, 2], [0, 1], [0, 1], [0], [0], [0, 7], [0, 7], [0, 7]]

theorem nestedTry_checked : checkedB Py311.platform true nestedTryCode nestedTryMap = true := by decide +kernel

/--
    def withfor(path):
        with open(path) as fp:
            for line in fp:
                if line == "x":
                    break
        return line
-/
def withForCode : Code where
  argcount := 1
  posonlyargcount := 0
  kwonlyargcount := 0
  nlocals := 3
  stacksize := 6
  flags := 3
  code := [151, 0, 116, 1, 0, 0, 0, 0, 0, 0, 0, 0, 0, 0, 124, 0, 166, 1, 0, 0, 171, 1, 0, 0, 0, 0, 0, 0, 0, 0, 53, 0, 125, 1, 124, 1, 68, 0, 93, 10,
    125, 2, 124, 2, 100, 1, 107, 2, 0, 0, 0, 0, 114, 2, 1, 0, 110, 1, 140, 11, 100, 0, 100, 0, 100, 0, 166, 2, 0, 0, 171, 2, 0, 0, 0, 0, 0, 0, 0, 0,
    1, 0, 110, 11, 35, 0, 49, 0, 115, 4, 119, 2, 120, 3, 89, 0, 119, 1, 1, 0, 89, 0, 1, 0, 1, 0, 124, 2, 83, 0]
  consts := [.other 0, .str "x"]
  names := ["open"]
  varnames := ["path", "fp", "line"]
  filename := "<string>"
  name := "withfor"
  qualname := "withfor"
  firstlineno := 21
  linetable := [128, 0, 221, 9, 13, 136, 100, 137, 26, 140, 26, 240, 0, 3, 5, 22, 144, 114, 216, 20, 22, 240, 0, 2, 9, 22, 240, 0, 2, 9, 22, 136,
    68, 216, 15, 19, 144, 115, 138, 123, 136, 123, 216, 16, 21, 144, 5, 240, 3, 0, 16, 27, 240, 5, 3, 5, 22, 240, 0, 3, 5, 22, 240, 0, 3, 5, 22, 241,
    0, 3, 5, 22, 244, 0, 3, 5, 22, 240, 0, 3, 5, 22, 240, 0, 3, 5, 22, 240, 0, 3, 5, 22, 240, 0, 3, 5, 22, 240, 0, 3, 5, 22, 240, 0, 3, 5, 22, 248,
    248, 248, 240, 0, 3, 5, 22, 240, 0, 3, 5, 22, 240, 0, 3, 5, 22, 240, 0, 3, 5, 22, 240, 8, 0, 12, 16, 128, 75]
  exctable := [144, 14, 42, 3, 170, 4, 46, 7, 177, 1, 46, 7]
  freevars := []
  cellvars := []

/-- Its stack map, block by block. -/
def withForMap : MapData where
  entry := [some (0, none), some (2, some (⟨0, 6, true, none⟩, true)), some (3, some (⟨0, 6, true, none⟩, true)), some (2, some (⟨0, 6, true, none⟩,
    true)), some (2, some (⟨0, 6, true, none⟩, true)), some (1, some (⟨0, 6, true, none⟩, true)), some (3, none), some (4, some (⟨1, 8, true, none⟩,
    true)), some (5, none), some (4, some (⟨1, 8, true, none⟩, true)), some (0, none)]
  base := [0, 0, 0, 0, 0, 0, 1, 0, 3, 0, 0]
  joins := [false, false, false, false, false, false, false, false, false, false, false]
  before := [[], [0], [0, 1], [0, 1, 2], [0, 1, 2], [0, 1], [0, 1], [0, 1, 6], [0, 1, 6], [0, 1, 6], [0, 1]]

theorem withFor_checked : checkedB Py311.platform true withForCode withForMap = true := by decide +kernel

/--
    def gen(xs):
        try:
            for x in xs:
                yield x
        finally:
            done()
-/
def genTryCode : Code where
  argcount := 1
  posonlyargcount := 0
  kwonlyargcount := 0
  nlocals := 2
  stacksize := 4
  flags := 35
  code := [75, 0, 1, 0, 151, 0, 9, 0, 124, 0, 68, 0, 93, 6, 125, 1, 124, 1, 86, 0, 151, 1, 1, 0, 140, 7, 9, 0, 116, 1, 0, 0, 0, 0, 0, 0, 0, 0, 0, 0,
    166, 0, 0, 0, 171, 0, 0, 0, 0, 0, 0, 0, 0, 0, 1, 0, 100, 0, 83, 0, 35, 0, 116, 1, 0, 0, 0, 0, 0, 0, 0, 0, 0, 0, 166, 0, 0, 0, 171, 0, 0, 0, 0, 0,
    0, 0, 0, 0, 1, 0, 119, 0, 120, 3, 89, 0, 119, 1]
  consts := [.other 0]
  names := ["done"]
  varnames := ["xs", "x"]
  filename := "<string>"
  name := "gen"
  qualname := "gen"
  firstlineno := 28
  linetable := [232, 0, 232, 0, 128, 0, 240, 2, 4, 5, 15, 216, 17, 19, 240, 0, 1, 9, 20, 240, 0, 1, 9, 20, 136, 65, 216, 18, 19, 136, 71, 136, 71,
    136, 71, 136, 71, 240, 3, 1, 9, 20, 245, 6, 0, 9, 13, 137, 6, 140, 6, 136, 6, 136, 6, 136, 6, 248, 141, 4, 137, 6, 140, 6, 136, 6, 136, 6, 248,
    248, 248]
  exctable := [132, 9, 30, 0, 158, 16, 46, 3]
  freevars := []
  cellvars := []

/-- Its stack map, block by block. -/
def genTryMap : MapData where
  entry := [some (1, none), some (1, some (⟨0, 4, false, none⟩, true)), some (2, some (⟨0, 4, false, none⟩, true)), some (0, some (⟨0, 4, false,
    none⟩, true)), some (1, none), some (3, none)]
  base := [0, 0, 0, 0, 0, 1]
  joins := [false, false, false, false, false, false]
  before := [[], [0], [0, 1], [0, 1], [0, 1], [0, 1, 4]]

theorem genTry_checked : checkedB Py311.platform true genTryCode genTryMap = true := by decide +kernel

/--
    async def lock(self):
        async with self.cond:
            await self.wait()
        return True
-/
def asyncWithCode : Code where
  argcount := 1
  posonlyargcount := 0
  kwonlyargcount := 0
  nlocals := 1
  stacksize := 6
  flags := 131
  code := [75, 0, 1, 0, 151, 0, 124, 0, 106, 0, 0, 0, 0, 0, 0, 0, 0, 0, 52, 0, 131, 1, 100, 0, 123, 3, 86, 0, 151, 3, 134, 4, 1, 0, 124, 0, 160, 1,
    0, 0, 0, 0, 0, 0, 0, 0, 0, 0, 0, 0, 0, 0, 0, 0, 0, 0, 0, 0, 166, 0, 0, 0, 171, 0, 0, 0, 0, 0, 0, 0, 0, 0, 131, 0, 100, 0, 123, 3, 86, 0, 151, 3,
    134, 4, 1, 0, 100, 0, 100, 0, 100, 0, 166, 2, 0, 0, 171, 2, 0, 0, 0, 0, 0, 0, 0, 0, 131, 2, 100, 0, 123, 3, 86, 0, 151, 3, 134, 4, 1, 0, 110, 17,
    35, 0, 49, 0, 131, 2, 100, 0, 123, 3, 86, 0, 151, 3, 134, 4, 115, 4, 119, 2, 120, 3, 89, 0, 119, 1, 1, 0, 89, 0, 1, 0, 1, 0, 100, 1, 83, 0]
  consts := [.other 0, .bool true]
  names := ["cond", "wait"]
  varnames := ["self"]
  filename := "<string>"
  name := "lock"
  qualname := "lock"
  firstlineno := 35
  linetable := [232, 0, 232, 0, 128, 0, 216, 15, 19, 140, 121, 240, 0, 1, 5, 26, 240, 0, 1, 5, 26, 240, 0, 1, 5, 26, 240, 0, 1, 5, 26, 240, 0, 1, 5,
    26, 240, 0, 1, 5, 26, 240, 0, 1, 5, 26, 240, 0, 1, 5, 26, 216, 14, 18, 143, 105, 138, 105, 137, 107, 140, 107, 208, 8, 25, 208, 8, 25, 208, 8, 25,
    208, 8, 25, 208, 8, 25, 208, 8, 25, 208, 8, 25, 240, 3, 1, 5, 26, 240, 0, 1, 5, 26, 240, 0, 1, 5, 26, 241, 0, 1, 5, 26, 244, 0, 1, 5, 26, 240, 0,
    1, 5, 26, 240, 0, 1, 5, 26, 240, 0, 1, 5, 26, 240, 0, 1, 5, 26, 240, 0, 1, 5, 26, 240, 0, 1, 5, 26, 240, 0, 1, 5, 26, 240, 0, 1, 5, 26, 240, 0, 1,
    5, 26, 240, 0, 1, 5, 26, 240, 0, 1, 5, 26, 240, 0, 1, 5, 26, 240, 0, 1, 5, 26, 240, 0, 1, 5, 26, 240, 0, 1, 5, 26, 240, 0, 1, 5, 26, 240, 0, 1, 5,
    26, 240, 0, 1, 5, 26, 248, 248, 248, 240, 0, 1, 5, 26, 240, 0, 1, 5, 26, 240, 0, 1, 5, 26, 240, 0, 1, 5, 26, 224, 11, 15, 136, 52]
  exctable := [144, 27, 61, 3, 189, 10, 65, 7, 7, 193, 10, 1, 65, 7, 7]
  freevars := []
  cellvars := []

/-- Its stack map, block by block. -/
def asyncWithMap : MapData where
  entry := [some (1, none), some (3, none), some (3, none), some (2, none), some (3, some (⟨0, 10, true, none⟩, true)), some (3, some (⟨0, 10, true,
    none⟩, true)), some (2, some (⟨0, 10, true, none⟩, true)), some (2, none), some (2, none), some (1, none), some (3, none), some (6, some (⟨1, 15,
    true, none⟩, true)), some (6, some (⟨1, 15, true, none⟩, true)), some (5, some (⟨1, 15, true, none⟩, true)), some (4, some (⟨1, 15, true, none⟩,
    true)), some (5, none), some (4, some (⟨1, 15, true, none⟩, true)), some (0, none)]
  base := [0, 0, 0, 0, 0, 0, 0, 0, 0, 0, 1, 0, 0, 0, 0, 3, 0, 0]
  joins := [false, false, false, false, false, false, false, false, false, false, false, false, false, false, false, false, false, false]
  before := [[], [0], [0, 1], [0, 1], [0, 1, 3], [0, 1, 3, 4], [0, 1, 3, 4], [0, 1, 3, 4, 6], [0, 1, 3, 4, 6, 7], [0, 1, 3, 4, 6, 7], [0, 1, 3, 4,
    6], [0, 1, 3, 4, 6, 10], [0, 1, 3, 4, 6, 10, 11], [0, 1, 3, 4, 6, 10, 11], [0, 1, 3, 4, 6, 10, 11, 13], [0, 1, 3, 4, 6, 10, 11, 13], [0, 1, 3, 4,
    6, 10, 11, 13], [0, 1, 3, 4, 6]]

theorem asyncWith_checked : checkedB Py311.platform true asyncWithCode asyncWithMap = true := by decide +kernel

/-- Read and written with the default options, they are the same programs. -/
theorem real_codes_round_trip : ∀ co ∈ [tryFinallyCode, nestedTryCode, withForCode, genTryCode, asyncWithCode],
    ∃ b co', Bytecode.fromCode Py311.platform co = .ok b ∧ b.toCode Py311.platform (id : Arg → Arg) eff311 = .ok co' ∧
      programCode Py311.platform (id : Arg → Arg) co' = programCode Py311.platform (id : Arg → Arg) co ∧ co'.code.length ≤ co.code.length := by
  have key : ∀ {co : Code} {D : MapData}, checkedB Py311.platform true co D = true →
      ∃ b co', Bytecode.fromCode Py311.platform co = .ok b ∧ b.toCode Py311.platform (id : Arg → Arg) eff311 = .ok co' ∧
      programCode Py311.platform (id : Arg → Arg) co' = programCode Py311.platform (id : Arg → Arg) co ∧ co'.code.length ≤ co.code.length := by
    intro co D h
    obtain ⟨b, co', h1, h2, h3, h4, _⟩ := C69_checked Py311.wf (by decide) (id : Arg → Arg) true h
    exact ⟨b, co', h1, h2, h3, h4⟩
  intro co hco
  simp only [List.mem_cons, List.not_mem_nil, or_false] at hco
  rcases hco with rfl | rfl | rfl | rfl | rfl
  · exact key tryFinally_checked
  · exact key nestedTry_checked
  · exact key withFor_checked
  · exact key genTry_checked
  · exact key asyncWith_checked

end Verif
