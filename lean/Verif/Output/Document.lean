/-
The whole HTML document (`report/src/report.rs`), with its head, navigation bar and scripts.

The style sheet and the version are the only constants which are parameters.
-/
import Verif.Output.Model
namespace LJ.Output
open LJ.Process (Str)
open LJ.Report (Report)

/-- report.rs:382-395 `SCRIPTS` -/
def scripts : List (String × String) := [("https://code.jquery.com/jquery-3.3.1.min.js", "sha384-tsQFqpEReu7ZLhBV2VZlAu7zcOV+rXbYlF2cqB8txI/8aZajjp4Bqd+V6D5IgvKT"), ("https://maxcdn.bootstrapcdn.com/bootstrap/3.3.7/js/bootstrap.min.js", "sha384-Tc5IQib027qvyjSMfHjOMaLkfuWVxZxUPnCJA7l2mCWNIpG9mGCD8wGNIcPD7Txa"), ("https://cdnjs.cloudflare.com/ajax/libs/patternfly/3.24.0/js/patternfly.min.js", "sha384-4lW8IOzfCHwzlShlG/AP2aYc91C+r+v3lpUEpjBM+FOHy0INgLKgyMBZd7O9ejln")]

/-- report.rs:397-406 `STYLES` -/
def styles : List (String × String) := [("https://cdnjs.cloudflare.com/ajax/libs/patternfly/3.24.0/css/patternfly.min.css", "sha384-nJHx77dqIJ9kzFQqUhPYDKwrwgp5od9/BrMUGQLygWcJu64ODr9qYWLHQ4K/YxpB"), ("https://cdnjs.cloudflare.com/ajax/libs/patternfly/3.24.0/css/patternfly-additions.min.css", "sha384-q1wvnTYo0F4qq2mYrUz3DfnaM3gXSkyHfVoGbl4zKuZ9SMlg/JIWBHeU398mRAp4")]

/-- report.rs:409-425 `JS` -/
def js : String := "\n$(document).ready(function(){\n$('#debugbtn').on('click', function(event) {$('[id=debuginfo]').toggle();});\n});\n$(\".list-group-item-header\").click(function(event){\n  if(!$(event.target).is(\"button, a, input, .fa-ellipsis-v\")){\n    $(this).find(\".fa-angle-right\").toggleClass(\"fa-angle-down\")\n      .end().parent().toggleClass(\"list-view-pf-expand-active\")\n      .find(\".list-group-item-container\").toggleClass(\"hidden\");\n    }\n})\n$(\".list-group-item-container .close\").on(\"click\", function (){\n  $(this).parent().addClass(\"hidden\")\n         .parent().removeClass(\"list-view-pf-expand-active\")\n         .find(\".fa-angle-right\").removeClass(\"fa-angle-down\");\n})\n"

/-- report.rs:427-436 `LOGO`, an attribute -/
def logo : String := "src=\"data:image/jpeg;base64,iVBORw0KGgoAAAANSUhEUgAAABcAAAAXBAMAAAASBMmTAAAAFVBMVEU6feU9geVjl+WMsOUicOXAz+X///9aF/8vAAAAAXRSTlMAQObYZgAAAAFiS0dEAIgFHUgAAAAJcEhZcwAACxMAAAsTAQCanBgAAAAHdElNRQfiCAsFFSh04lDsAAAAp0lEQVQY012QXQ7CQAiE158LyKYH6BDf7WAPYEkP4BLvfxVxWxPjhge+sAwDpfy9oxgfX5hQhbctt0VV4Z1OjTVC+OowtqeNrekH7rO7qq/3/HcAZoIzOZZy5uDtIrHKlEN0Yg9D9kugQkVbTaDxMkAM9lOJuvWAhinwkR782dVS+iAwjpqzsDlYr7uDcsKPt3TtEc7o+8Siqeb7doQI9jwFjcv/YcobPpYhOB4CZRcAAAAASUVORK5CYII=\""

/-- `name="value"` -/
def attr (name : String) (value : Str) : Str := name.toList ++ "=\"".toList ++ value ++ "\"".toList

/-- report.rs:64-70 `add_link` -/
def link (x : String × String) : Node :=
  .elem "link" [attr "href" x.1.toList, "rel=\"stylesheet\"".toList, attr "integrity" x.2.toList, "crossorigin=\"anonymous\"".toList] []

/-- report.rs:63-79 `add_head`; `css` is the style sheet. -/
def head (css title : Str) : Node :=
  .elem "head" [] ([.elem "title" [] [.text title], .elem "meta" ["charset='utf-8'".toList] []] ++ styles.map link ++ [.elem "style" [] [.text css]])

/-- report.rs:117-139, the entries on the right. -/
def utility (version : Str) : Node :=
  .elem "ul" [classAttr "nav navbar-nav navbar-utility"]
    [.elem "li" [] [.elem "a" ["href=\"#\"".toList, "id='debugbtn'".toList] [.text "Show Debug".toList]],
     .elem "li" [] [.elem "a" ["href=\"https://github.com/logreduce/logreduce\"".toList, "target=\"_blank\"".toList] [.text "Documentation".toList]],
     .elem "li" [] [.elem "a" ["href=\"#\"".toList] [.elem "strong" [] [.text "Version".toList], .text version]]]

/-- report.rs:140-153, the entries on the left. -/
def primary : Node :=
  .elem "ul" [classAttr "nav navbar-nav navbar-primary"]
    [.elem "li" ["class=\"active\"".toList] [.elem "a" ["href=\"log-classify.html\"".toList] [.text "Report".toList]],
     .elem "li" [] [.elem "a" ["href=\"./\"".toList] [.text "Job Artifacts".toList]]]

/-- report.rs:108-155 `add_nav` -/
def nav (version : Str) : Node :=
  .elem "nav" [classAttr "navbar navbar-default navbar-pf", "role=\"navigation\"".toList]
    [.elem "div" [classAttr "navbar-header"] [.elem "img" [logo.toList, "alt=\"LogReduce\"".toList] []],
     .elem "div" [classAttr "collapse navbar-collapse navbar-collapse-1"] [utility version, primary]]

/-- report.rs:82-87 `add_script` -/
def script (x : String × String) : Node :=
  .elem "script" [attr "src" x.1.toList, attr "integrity" x.2.toList, "crossorigin=\"anonymous\"".toList] []

section
variable {C S N D E ε : Type} [DecidableEq N]

/-- report.rs:81-99 `add_body` -/
def body (checks : Bool) (sc : Scale D) (version : Str) (lb : Labels C S N) (r : Report C S N D E ε) : Option Node := do
  let c ← container checks sc lb r
  some (.elem "body" [] ([nav version, c] ++ scripts.map script ++ [.elem "script" [] [.text js.toList]]))

/-- report.rs:11-29 `render`: the document. -/
def document (checks : Bool) (sc : Scale D) (css version : Str) (lb : Labels C S N) (r : Report C S N D E ε) : Option Node := do
  let b ← body checks sc version lb r
  some (.elem "html" ["lang='en'".toList] [head css ("Logreduce of ".toList ++ lb.content r.target), b])

end
end LJ.Output
