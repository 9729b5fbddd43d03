import Verif.Model.Binary64
import Verif.Model.Robustness

/-!
# The test `tests/test_append_error.cc` of the repository, run on the model

This is a test of the *model* (its outcome is the one the project expects of the code), not a property.
The arithmetic is binary64, as in the code; a decimal literal is rounded as the compiler does.
-/

namespace Verif
namespace Tests

def time1 : List ℚ := [
  0.0, 1.0, 2.0, 3.0, 4.0, 5.0, 6.0, 7.0, 8.0, 9.0, 10.0, 11.0, 12.0, 13.0, 14.0, 15.0, 16.0, 17.0,
  18.0, 19.0, 20.0, 21.0, 22.0, 23.0, 24.0]

def theta1 : List ℚ := [
  0.8072115182876587, 0.6253616213798523, 0.5759530067443848, 2.1681711673736572, 1.3756893873214722,
  3.254326105117798, 0.9760392904281616, 0.3995759189128876, 0.4058665931224823, 1.9370567798614502,
  0.19959034025669098, 1.7020440101623535, 0.8671382069587708, 0.4280993342399597, 1.0938061475753784,
  0.42080727219581604, 2.25722336769104, 0.7912396192550659, 1.7364906072616577, 0.518024206161499,
  2.300281286239624, 1.2479541301727295, 0.377531498670578, 0.06242965906858444, 0.49801141023635864]

def x1 : List ℚ := [
  0.667906641960144, 0.4194730520248413, 0.058425962924957275, 1.093833088874817, 1.294434666633606,
  0.038136839866638184, 0.8808276057243347, 0.4610064923763275, 0.6509886384010315, 0.288589745759964,
  1.0443519353866577, 0.847595751285553, 0.5976979732513428, 1.4771767854690552, 1.362302303314209,
  0.2924133539199829, 0.6099613308906555, 0.8487048745155334, 1.218008041381836, 0.46537500619888306,
  0.5752330422401428, 0.12523308396339417, 0.5752788186073303, 0.5430198907852173, 1.007282853126525]

def xDot1 : List ℚ := [
  0.32892680168151855, 1.3858317136764526, 0.7090339660644531, 2.7325704097747803, 0.25496241450309753,
  0.6217708587646484, 0.5633045434951782, 0.15813271701335907, 0.480469673871994, 1.7805505990982056,
  0.016603171825408936, 0.6469761729240417, 0.37351396679878235, 2.1860337257385254,
  1.4297616481781006, 0.37450167536735535, 1.1249395608901978, 0.9770298004150391, 0.46279963850975037,
  1.7110997438430786, 0.2733519673347473, 1.7005544900894165, 1.4978992938995361, 0.2856500744819641,
  1.3224234580993652]

def time2 : List ℚ := [
  48.0, 49.0, 50.0, 51.0, 52.0, 53.0, 54.0, 55.0, 56.0, 57.0, 58.0, 59.0, 60.0, 61.0, 62.0, 63.0, 64.0,
  65.0, 66.0, 67.0, 68.0, 69.0, 70.0, 71.0, 72.0]

def theta2 : List ℚ := [
  0.44065698981285095, 0.5513322949409485, 0.5247364044189453, 0.43430134654045105,
  0.32265782356262207, 0.5241603255271912, 0.469169020652771, 0.46336737275123596, 0.5579506754875183,
  0.3699119985103607, 0.46935901045799255, 0.4902954399585724, 0.4584878087043762, 0.30844229459762573,
  0.4374590218067169, 0.6623110175132751, 0.6576758027076721, 0.8176819682121277, 0.6190072894096375,
  0.5651955604553223, 0.4377847909927368, 0.4374394118785858, 0.1870441734790802, 0.46698999404907227,
  0.5973787903785706]

def x2 : List ℚ := [
  0.45926108956336975, 0.5118712186813354, 0.5310275554656982, 0.5383917689323425, 0.5208474397659302,
  0.44286447763442993, 0.524522602558136, 0.48844966292381287, 0.48231762647628784, 0.509438693523407,
  0.4990404546260834, 0.5225937962532043, 0.49739140272140503, 0.557137131690979, 0.5001983642578125,
  0.5057839155197144, 0.49534863233566284, 0.46751928329467773, 0.5088319778442383, 0.5121058821678162,
  0.5232639312744141, 0.4922287166118622, 0.48807886242866516, 0.470917671918869, 0.46549665927886963]

def xDot2 : List ℚ := [
  0.057910606265068054, 0.5042053461074829, 1.0982192754745483, 0.7265422940254211, 0.5069679617881775,
  0.062289945781230927, 1.1192792654037476, 0.564326822757721, 1.3101483583450317, 0.05849301815032959,
  1.1456730365753174, 0.24640771746635437, 0.12858152389526367, 0.1601352095603943, 0.6358292698860168,
  0.7501578330993652, 0.8025932312011719, 0.09620770812034607, 0.5078790783882141, 0.5271714925765991,
  1.5782673358917236, 0.4009734094142914, 0.8590595126152039, 0.824567973613739, 0.5973787903785706]

def time3 : List ℚ := [
  36.0, 37.0, 38.0, 39.0, 40.0, 41.0, 42.0, 43.0, 44.0, 45.0, 46.0, 47.0, 48.0, 49.0, 50.0, 51.0, 52.0,
  53.0, 54.0, 55.0, 56.0, 57.0, 58.0, 59.0, 60.0]

def theta3 : List ℚ := [
  0.5072104334831238, 0.5413619875907898, 0.46047237515449524, 0.587928831577301, 0.6958177089691162,
  0.465532124042511, 0.3703998029232025, 0.5294902324676514, 0.5152763724327087, 0.3972248136997223,
  0.5539292693138123, 0.7565155029296875, 0.7385683655738831, 0.8336687684059143, 0.7297738790512085,
  0.761920154094696, 0.5655747056007385, 0.5533368587493896, 0.3833700716495514, 0.4904012084007263,
  0.6297431588172913, 0.5226778388023376, 0.5340427756309509, 0.5696533918380737, 0.5347775816917419]

def x3 : List ℚ := [
  0.49088460206985474, 0.46030473709106445, 0.46780791878700256, 0.5537748336791992, 0.615630567073822,
  0.506172776222229, 0.504558265209198, 0.5294902324676514, 0.5679064393043518, 0.562709391117096,
  0.5367719531059265, 0.5054753422737122, 0.49388623237609863, 0.4934890568256378, 0.466511994600296,
  0.4677998721599579, 0.6733770370483398, 0.5938720107078552, 0.4902632236480713, 0.4863351583480835,
  0.4031582176685333, 0.46352311968803406, 0.5801506042480469, 0.45827946066856384, 0.5205367207527161]

def xDot3 : List ℚ := [
  0.2561785876750946, 0.7974404096603394, 0.28822001814842224, 0.7067545652389526, 0.3675220012664795,
  1.8011497259140015, 2.357013702392578, 0.9592754244804382, 0.16032743453979492, 1.4524136781692505,
  0.5566926002502441, 0.669854998588562, 1.120910882949829, 1.1875431537628174, 1.0968633890151978,
  1.3454444408416748, 1.2306058406829834, 1.8302419185638428, 0.7071495652198792, 0.08202195167541504,
  1.1206265687942505, 0.7472844123840332, 1.7585080862045288, 1.749678373336792, 1.4623041152954102]

/-- A literal of type `double`. -/
def dbl (q : ℚ) : D B64 := B64.rnd q
def doubles (l : List ℚ) : List (D B64) := l.map dbl

/-- `get_phi`, test_append_error.cc:13-20. -/
def getPhi : Outcome (Expr B64) := do
  let theta1 := Expr.withOp "theta" .LE (dbl 1.0)
  let theta2 := Expr.withOp "theta" .LT (dbl 0.25)
  let xDot := Expr.withOp "x_dot" .LT (dbl 0.25)
  let x := Expr.withOp "x" .LT (dbl 1)
  Expr.andOp (Expr.Always (← Expr.andOp theta1 x))
    (Expr.Eventually (Expr.Always (← Expr.andOp theta2 xDot)))

/-- `get_trace1`, `get_trace2`, `get_trace3`, test_append_error.cc:22-134. -/
def getTrace (theta x xDot t : List ℚ) : Outcome (Trace B64) := do
  return [("theta", ← Signal.ofPoints (doubles theta) (doubles t)),
    ("x", ← Signal.ofPoints (doubles x) (doubles t)),
    ("x_dot", ← Signal.ofPoints (doubles xDot) (doubles t))]

/-- The number of samples of the robustness, test_append_error.cc:141-157. -/
def appendTest (theta x xDot t : List ℚ) : Outcome Nat := do
  let z ← computeRobustness false 0 (← getPhi) (← getTrace theta x xDot t) true
  return z.size

/-- Nothing is thrown (and no assertion fails, and nothing undefined happens). -/
example : appendTest theta1 x1 xDot1 time1 = .ok 46 ∧ appendTest theta2 x2 xDot2 time2 = .ok 45 ∧
    appendTest theta3 x3 xDot3 time3 = .ok 44 := by decide +kernel

end Tests
end Verif
